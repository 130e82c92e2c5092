import Verif.Props.Polyline
import Verif.Props.Plane

/-!
Properties C38-C40: polylines and planes.
-/

namespace Blmath.Props
open Blmath.Geometry Blmath.Spec Blmath.Proofs Blmath.Vx

/-- the segment is not strictly on one side of the plane -/
def Meets (pl : Plane ℝ) (s : V3 ℝ × V3 ℝ) : Prop :=
  ¬ (0 < height pl s.1 ∧ 0 < height pl s.2) ∧ ¬ (height pl s.1 < 0 ∧ height pl s.2 < 0)

/-- the segment lies in the plane -/
def InPlane (pl : Plane ℝ) (s : V3 ℝ × V3 ℝ) : Prop := height pl s.1 = 0 ∧ height pl s.2 = 0

/-! ### the selection of edges -/

theorem fnz_getElem? {β : Type} (m : β → Bool) : ∀ (segs : List β) (k0 k i : ℕ),
    (Plane.flatnonzeroFrom k0 (segs.map m))[k]? = some i →
    k0 ≤ i ∧ ∃ s, segs[i - k0]? = some s ∧ m s = true ∧ (segs.filter m)[k]? = some s
  | [], _, _, _, h => by simp [Plane.flatnonzeroFrom] at h
  | s :: segs, k0, k, i, h => by
    by_cases hm : m s = true
    · simp only [List.map_cons, Plane.flatnonzeroFrom, hm, if_true] at h
      cases k with
      | zero =>
        simp at h
        subst h
        exact ⟨le_rfl, s, by simp, hm, by simp [hm]⟩
      | succ k =>
        simp only [List.getElem?_cons_succ] at h
        obtain ⟨h1, t, h2, h3, h4⟩ := fnz_getElem? m segs (k0 + 1) k i h
        refine ⟨by omega, t, ?_, h3, by simp [hm, h4]⟩
        have : i - k0 = (i - (k0 + 1)) + 1 := by omega
        rw [this, List.getElem?_cons_succ, h2]
    · simp only [List.map_cons, Plane.flatnonzeroFrom, hm] at h
      obtain ⟨h1, t, h2, h3, h4⟩ := fnz_getElem? m segs (k0 + 1) k i h
      refine ⟨by omega, t, ?_, h3, by simp [hm, h4]⟩
      have : i - k0 = (i - (k0 + 1)) + 1 := by omega
      rw [this, List.getElem?_cons_succ, h2]

theorem fnz_length {β : Type} (m : β → Bool) : ∀ (segs : List β) (k0 : ℕ),
    (Plane.flatnonzeroFrom k0 (segs.map m)).length = (segs.filter m).length
  | [], _ => rfl
  | s :: segs, k0 => by
    by_cases hm : m s = true <;> simp [Plane.flatnonzeroFrom, hm, fnz_length m segs]

theorem fnz_append (a b : List Bool) : ∀ (k0 : ℕ), Plane.flatnonzeroFrom k0 (a ++ b) =
    Plane.flatnonzeroFrom k0 a ++ Plane.flatnonzeroFrom (k0 + a.length) b := by
  induction a with
  | nil => intro k0; simp [Plane.flatnonzeroFrom]
  | cons x a ih =>
    intro k0
    have e : k0 + (x :: a).length = k0 + 1 + a.length := by simp; omega
    rw [e]
    by_cases hx : x = true <;> simp [Plane.flatnonzeroFrom, hx, ih]

theorem fnz_false : ∀ (a : List Bool) (k0 : ℕ), (∀ x ∈ a, x = false) → Plane.flatnonzeroFrom k0 a = []
  | [], _, _ => rfl
  | x :: a, k0, h => by
    have := h x (by simp)
    simp [Plane.flatnonzeroFrom, this, fnz_false a (k0 + 1) (fun y hy => h y (by simp [hy]))]

theorem intersectPlane_eq {α : Type} [Num α] (v : List (V3 α)) (closed : Bool) (pl : Plane α) :
    (poly v closed).intersectPlane pl =
      .ok (((chainSegs v closed).filter (Polyline.edgeMeets pl)).map (Polyline.edgePoint pl),
        Plane.flatnonzero ((chainSegs v closed).map (Polyline.edgeMeets pl))) := by
  unfold Polyline.intersectPlane
  rw [segments_eq]
  rfl

/-! ### with floating-point values -/

/-- finite coordinates as floats -/
noncomputable def flPt (p : V3 ℝ) : V3 Fl := ⟨.fin p.x, .fin p.y, .fin p.z⟩

/-- a plane with finite coordinates as floats -/
noncomputable def flPlane (pl : Plane ℝ) : Plane Fl := ⟨flPt pl.r0, flPt pl.n⟩

theorem signedDistance1_fl (pl : Plane ℝ) (p : V3 ℝ) :
    (flPlane pl).signedDistance1 (flPt p) = .fin (height pl p) := by
  rw [← signedDistance1_real]
  simp [Plane.signedDistance1, Plane.equation, V3.dot, flPlane, flPt]

theorem npAbs_fin (x : ℝ) : npAbs (Fl.fin x) = .fin |x| := by
  unfold npAbs
  simp only [Fl.lit_fl, Fl.lt_fin]
  push_cast
  split
  · rename_i h; simp [abs_of_neg h]
  · rename_i h; rw [abs_of_nonneg (not_lt.mp h)]

theorem npSign_fin (x : ℝ) : npSign (Fl.fin x) = .fin (npSign x) := by
  unfold npSign
  simp only [Fl.lit_fl, Fl.lt_fin, Fl.eq_fin, Num.lit_real, Num.lt_real, Num.eq_real]
  split
  · rfl
  · split
    · rfl
    · split <;> rfl

theorem sign_sum (x y : ℝ) : |npSign x + npSign y| = 2 ↔ (0 < x ∧ 0 < y) ∨ (x < 0 ∧ y < 0) := by
  rw [npSign_real, npSign_real]
  rcases lt_trichotomy x 0 with h | h | h <;> rcases lt_trichotomy y 0 with h' | h' | h'
  all_goals first
    | simp [h, h', not_lt.mpr h.le, not_lt.mpr h'.le]; norm_num; done
    | simp [h, h', not_lt.mpr h.le]; norm_num; done
    | simp [h, h', not_lt.mpr h'.le]; norm_num; done
    | simp [h, h', not_lt.mpr h.le, not_lt.mpr h'.le]; done
    | simp [h, h', not_lt.mpr h.le]; done
    | simp [h, h', not_lt.mpr h'.le]; done
    | simp [h, h']; norm_num; done
    | simp [h, h']; done

theorem edgeMeets_fl (pl : Plane ℝ) (s : V3 ℝ × V3 ℝ) :
    Polyline.edgeMeets (flPlane pl) (flPt s.1, flPt s.2) = true ↔ Meets pl s := by
  unfold Polyline.edgeMeets Meets
  rw [signedDistance1_fl, signedDistance1_fl, npSign_fin, npSign_fin, Fl.add_fin, npAbs_fin,
    Bool.not_eq_true', Bool.eq_false_iff, ne_eq, Fl.lit_fl, Fl.eq_fin]
  push_cast
  rw [sign_sum]
  tauto

theorem edgeMeets_real (pl : Plane ℝ) (s : V3 ℝ × V3 ℝ) : Polyline.edgeMeets pl s = true ↔ Meets pl s := by
  unfold Polyline.edgeMeets Meets
  rw [signedDistance1_real, signedDistance1_real, npAbs_real',
    Bool.not_eq_true', Bool.eq_false_iff, ne_eq, Num.lit_real, Num.eq_real]
  push_cast
  rw [sign_sum]
  tauto

/-- where the segment crosses the plane -/
noncomputable def crossing (pl : Plane ℝ) (s : V3 ℝ × V3 ℝ) : V3 ℝ :=
  along s.1 (|height pl s.1| / (|height pl s.1| + |height pl s.2|)) (vec3 s.1 s.2)

theorem abs_sum_pos {pl : Plane ℝ} {s : V3 ℝ × V3 ℝ} (h : ¬ InPlane pl s) :
    0 < |height pl s.1| + |height pl s.2| := by
  have h1 := abs_nonneg (height pl s.1)
  have h2 := abs_nonneg (height pl s.2)
  rcases h1.lt_or_eq with h1 | h1
  · linarith
  · rcases h2.lt_or_eq with h2 | h2
    · linarith
    · exact absurd ⟨abs_eq_zero.mp h1.symm, abs_eq_zero.mp h2.symm⟩ h

theorem crossing_spec (pl : Plane ℝ) (s : V3 ℝ × V3 ℝ) (hm : Meets pl s) (h : ¬ InPlane pl s) :
    OnPlane pl (crossing pl s) ∧ OnSegment s.1 s.2 (crossing pl s) := by
  have hp := abs_sum_pos h
  have h1 := abs_nonneg (height pl s.1)
  have h2 := abs_nonneg (height pl s.2)
  refine ⟨?_, _, by positivity, by rw [div_le_one hp]; linarith, rfl⟩
  rw [onPlane_iff, crossing, height_along, height_sub]
  obtain ⟨hm1, hm2⟩ := hm
  generalize height pl s.1 = x at *
  generalize height pl s.2 = y at *
  obtain ⟨D, hD⟩ : ∃ D, D = |x| + |y| := ⟨_, rfl⟩
  rw [← hD] at hp ⊢
  have hne : D ≠ 0 := hp.ne'
  field_simp
  rw [hD]
  rcases le_total 0 x with hx0 | hx0 <;> rcases le_total 0 y with hy0 | hy0
  · rcases hx0.lt_or_eq with hx0 | hx0
    · have : y = 0 := le_antisymm (not_lt.mp fun hy' => hm1 ⟨hx0, hy'⟩) hy0
      subst this; simp; rw [abs_of_pos hx0]; ring
    · subst hx0; simp
  · rw [abs_of_nonneg hx0, abs_of_nonpos hy0]; ring
  · rw [abs_of_nonpos hx0, abs_of_nonneg hy0]; ring
  · rcases hx0.lt_or_eq with hx0 | hx0
    · have : y = 0 := le_antisymm hy0 (not_lt.mp fun hy' => hm2 ⟨hx0, hy'⟩)
      subst this; simp; rw [abs_of_neg hx0]; ring
    · subst hx0; simp

theorem edgePoint_real (pl : Plane ℝ) (s : V3 ℝ × V3 ℝ) (h : ¬ InPlane pl s) :
    Polyline.edgePoint pl s = crossing pl s := by
  have hp := (abs_sum_pos h).ne'
  unfold Polyline.edgePoint crossing
  simp only [signedDistance1_real, npAbs_real', Num.lit_real]
  obtain ⟨D, hD⟩ : ∃ D, D = |height pl s.1| + |height pl s.2| := ⟨_, rfl⟩
  have e : |height pl s.2| = D - |height pl s.1| := by rw [hD]; ring
  rw [← hD] at hp ⊢
  ext <;> simp [along, vec3] <;> rw [e] <;> field_simp <;> ring

theorem edgePoint_fl (pl : Plane ℝ) (s : V3 ℝ × V3 ℝ) :
    (¬ InPlane pl s → Polyline.edgePoint (flPlane pl) (flPt s.1, flPt s.2) = flPt (crossing pl s)) ∧
    (InPlane pl s → Polyline.edgePoint (flPlane pl) (flPt s.1, flPt s.2) = nanRow) := by
  constructor
  · intro h
    rw [← edgePoint_real pl s h]
    have hp := (abs_sum_pos h).ne'
    unfold Polyline.edgePoint
    simp only [signedDistance1_fl, npAbs_fin, signedDistance1_real, npAbs_real', Num.lit_real, Fl.lit_fl,
      Fl.add_fin, Fl.div_fin _ _ hp, Fl.sub_fin]
    ext <;> simp [flPt, V3.smul]
  · rintro ⟨h1, h2⟩
    unfold Polyline.edgePoint
    simp only [signedDistance1_fl, npAbs_fin, h1, h2, abs_zero, Fl.add_fin, add_zero, Fl.div_zero_zero, Fl.sub_nan]
    ext <;> simp [nanRow]

theorem chainSegs_map {P Q : Type} (f : P → Q) (v : List P) (closed : Bool) :
    chainSegs (v.map f) closed = (chainSegs v closed).map fun s => (f s.1, f s.2) := by
  have hp : ∀ w : List P, pairs (w.map f) = (pairs w).map fun s => (f s.1, f s.2) := by
    intro w
    induction w with
    | nil => rfl
    | cons a w ih =>
      cases w with
      | nil => rfl
      | cons b w =>
        simp only [List.map_cons, pairs] at ih ⊢
        rw [ih]
  unfold chainSegs
  rw [← hp]
  congr 1
  unfold circuit
  cases closed <;> cases v <;> simp

/-- **C38.** `intersect_plane` on any polyline with finite coordinates: the returned indices are, in
increasing order, exactly the edges not strictly on one side of the plane.  The row of such an edge is
a point of the plane and of the edge, or NaN if the edge lies in the plane. -/
theorem C38_intersect (v : List (V3 ℝ)) (closed : Bool) (pl : Plane ℝ) :
    ∃ (pts : List (V3 Fl)) (idx : List ℕ), (poly (v.map flPt) closed).intersectPlane (flPlane pl) = .ok (pts, idx) ∧
      pts.length = idx.length ∧ idx.Pairwise (· < ·) ∧
      (∀ i, i ∈ idx ↔ ∃ s, (chainSegs v closed)[i]? = some s ∧ Meets pl s) ∧
      ∀ (k i : ℕ), idx[k]? = some i → ∃ s, (chainSegs v closed)[i]? = some s ∧
        (¬ InPlane pl s → ∃ q, pts[k]? = some (flPt q) ∧ OnPlane pl q ∧ OnSegment s.1 s.2 q) ∧
        (InPlane pl s → pts[k]? = some nanRow) := by
  refine ⟨_, _, intersectPlane_eq _ _ _, ?_, flatnonzeroFrom_sorted _ 0, ?_, ?_⟩
  · unfold Plane.flatnonzero
    rw [fnz_length, List.length_map]
  · intro i
    unfold Plane.flatnonzero
    rw [mem_flatnonzeroFrom, chainSegs_map]
    simp only [Nat.zero_le, true_and, Nat.sub_zero, List.map_map, List.getElem?_map, Option.map_eq_some_iff,
      Function.comp, edgeMeets_fl]
  · intro k i h
    unfold Plane.flatnonzero at h
    obtain ⟨_, s', h1, h2, h3⟩ := fnz_getElem? _ _ 0 k i h
    rw [chainSegs_map, Nat.sub_zero, List.getElem?_map, Option.map_eq_some_iff] at h1
    obtain ⟨s, hs, rfl⟩ := h1
    rw [edgeMeets_fl] at h2
    refine ⟨s, hs, ?_, ?_⟩
    · intro hin
      refine ⟨crossing pl s, ?_, crossing_spec pl s h2 hin⟩
      rw [List.getElem?_map, h3, Option.map_some, (edgePoint_fl pl s).1 hin]
    · intro hin
      rw [List.getElem?_map, h3, Option.map_some, (edgePoint_fl pl s).2 hin]

/-- **C38.** A polyline without vertices (None) has no edge list to look at: TypeError. -/
theorem C38_none (closed : Bool) (pl : Plane ℝ) :
    Raises (Polyline.intersectPlane (⟨none, closed, none⟩ : Polyline ℝ) pl) := ⟨_, rfl⟩

/-! ### cutting -/

theorem meets_swap (pl : Plane ℝ) (a b : V3 ℝ) : Meets pl (a, b) ↔ Meets pl (b, a) := by
  unfold Meets; tauto

/-- a chain that never meets the plane stays on the side where it starts -/
theorem chain_front (pl : Plane ℝ) : ∀ (ys : List (V3 ℝ)) (b : V3 ℝ), (∀ s ∈ pairs (b :: ys), ¬ Meets pl s) →
    (0 ≤ height pl b → ∀ q ∈ b :: ys, 0 ≤ height pl q) ∧
    (height pl b ≤ 0 → ∀ q ∈ b :: ys, height pl q ≤ 0) ∧
    (height pl b < 0 → ∀ q ∈ b :: ys, height pl q < 0)
  | [], b, _ => by simp
  | y :: ys, b, h => by
    have hb := h (b, y) (by simp [pairs])
    have ih := chain_front pl ys y (fun s hs => h s (by simp [pairs, hs]))
    have hb' : (0 < height pl b ∧ 0 < height pl y) ∨ (height pl b < 0 ∧ height pl y < 0) := by
      unfold Meets at hb
      tauto
    refine ⟨fun h0 q hq => ?_, fun h0 q hq => ?_, fun h0 q hq => ?_⟩ <;>
      rcases List.mem_cons.mp hq with rfl | hq
    · exact h0
    · exact ih.1 (by rcases hb' with h' | h' <;> linarith [h'.1, h'.2]) q hq
    · exact h0
    · exact ih.2.1 (by rcases hb' with h' | h' <;> linarith [h'.1, h'.2]) q hq
    · exact h0
    · exact ih.2.2 (by rcases hb' with h' | h' <;> linarith [h'.1, h'.2]) q hq

/-- the same, looking back from the end -/
theorem chain_front_end (pl : Plane ℝ) (xs : List (V3 ℝ)) (a : V3 ℝ) (h : ∀ s ∈ pairs (xs ++ [a]), ¬ Meets pl s) :
    (0 ≤ height pl a → ∀ q ∈ xs ++ [a], 0 ≤ height pl q) ∧
    (height pl a ≤ 0 → ∀ q ∈ xs ++ [a], height pl q ≤ 0) ∧
    (height pl a < 0 → ∀ q ∈ xs ++ [a], height pl q < 0) := by
  have e : xs ++ [a] = (a :: xs.reverse).reverse := by simp
  rw [e, pairs_reverse] at h
  have := chain_front pl xs.reverse a (by
    intro s hs hm
    refine h s.swap ?_ ((meets_swap pl s.1 s.2).mp hm)
    rw [List.mem_reverse, List.mem_map]
    exact ⟨s, hs, rfl⟩)
  rw [e]
  simpa only [List.mem_reverse] using this

theorem pairs_split {P : Type} : ∀ (v : List P) (i : ℕ) (s : P × P), (pairs v)[i]? = some s →
    ∃ xs ys, v = xs ++ s.1 :: s.2 :: ys ∧ xs.length = i
  | [], _, _, h => by simp [pairs] at h
  | [_], _, _, h => by simp [pairs] at h
  | a :: b :: r, 0, s, h => by
    simp [pairs] at h
    subst h
    exact ⟨[], r, rfl, rfl⟩
  | a :: b :: r, i + 1, s, h => by
    obtain ⟨xs, ys, h1, h2⟩ := pairs_split (b :: r) i s (by simpa [pairs] using h)
    exact ⟨a :: xs, ys, by rw [h1]; rfl, by simp [h2]⟩

theorem pairs_mid {P : Type} (xs ys : List P) (a b : P) :
    pairs (xs ++ a :: b :: ys) = pairs (xs ++ [a]) ++ (a, b) :: pairs (b :: ys) := by
  rw [pairs_append_cons]
  rfl

theorem segmentVectors_eq (v : List (V3 ℝ)) (closed : Bool) :
    (poly v closed).segmentVectors = .ok ((chainSegs v closed).map fun s => s.2 - s.1) := by
  unfold Polyline.segmentVectors
  rw [segments_eq]
  rfl

theorem one_selected {β : Type} (m : β → Bool) (P Q : List β) (s : β) (hs : m s = true)
    (hP : ∀ t ∈ P, m t = false) (hQ : ∀ t ∈ Q, m t = false) :
    (P ++ s :: Q).filter m = [s] ∧ Plane.flatnonzero ((P ++ s :: Q).map m) = [P.length] := by
  have f1 : P.filter m = [] := by
    rw [List.filter_eq_nil_iff]; intro t ht; simp [hP t ht]
  have f2 : Q.filter m = [] := by
    rw [List.filter_eq_nil_iff]; intro t ht; simp [hQ t ht]
  constructor
  · simp [f1, f2, hs]
  · unfold Plane.flatnonzero
    rw [List.map_append, fnz_append, fnz_false (P.map m) 0 (by simpa using hP)]
    simp only [List.map_cons, Plane.flatnonzeroFrom, hs, if_true, List.nil_append, List.length_map]
    rw [fnz_false (Q.map m) _ (by simpa using hQ)]
    simp

theorem pySlice_from {P : Type} (v : List P) (i : ℕ) (hi : i ≤ v.length) :
    pySlice v (i : ℤ) v.length = v.drop i := by
  unfold pySlice sliceBound
  have h1 : ¬ (i : ℤ) < 0 := by omega
  have h2 : ¬ (v.length : ℤ) < 0 := by omega
  simp only [h1, h2, if_false, Int.toNat_natCast, min_self, Nat.min_eq_left hi, List.take_length]

theorem pySlice_to {P : Type} (v : List P) (i : ℕ) (hi : i ≤ v.length) :
    pySlice v 0 (i : ℤ) = v.take i := by
  unfold pySlice sliceBound
  have h1 : ¬ (i : ℤ) < 0 := by omega
  simp only [h1, if_false, Int.toNat_natCast, Nat.min_eq_left hi, lt_irrefl]
  simp

/-- **C39.** An open polyline of which exactly one edge, number `i`, meets the plane without lying in
it: the cut is an open polyline made of the crossing point and of all vertices after the edge, or
of all vertices before it and the crossing point, whichever side is in front.  Nothing in it is
behind the plane, and nothing cut off is in front. -/
theorem C39_cut (pl : Plane ℝ) (hu : UnitNormal pl) (v : List (V3 ℝ)) (i : ℕ) (s : V3 ℝ × V3 ℝ)
    (hs : (chainSegs v false)[i]? = some s) (hm : Meets pl s) (hin : ¬ InPlane pl s)
    (honly : ∀ j t, (chainSegs v false)[j]? = some t → Meets pl t → j = i) :
    ∃ X w, (poly v false).cutByPlane pl = .ok (poly w false) ∧ OnPlane pl X ∧ OnSegment s.1 s.2 X ∧
      (∀ q ∈ w, 0 ≤ height pl q) ∧
      ((height pl s.1 < height pl s.2 ∧ w = X :: v.drop (i + 1) ∧ ∀ q ∈ v.take (i + 1), height pl q ≤ 0) ∨
       (height pl s.2 < height pl s.1 ∧ w = v.take (i + 1) ++ [X] ∧ ∀ q ∈ v.drop (i + 1), height pl q ≤ 0)) := by
  have hseg : chainSegs v false = pairs v := by simp [chainSegs, circuit]
  rw [hseg] at hs honly
  obtain ⟨a, b⟩ := s
  obtain ⟨xs, ys, hv, hi⟩ := pairs_split v i (a, b) hs
  simp only at hv
  have hpairs : pairs v = pairs (xs ++ [a]) ++ (a, b) :: pairs (b :: ys) := by rw [hv, pairs_mid]
  have hPlen : (pairs (xs ++ [a])).length = i := by rw [pairs_length]; simp [hi]
  have hP : ∀ t ∈ pairs (xs ++ [a]), ¬ Meets pl t := by
    intro t ht hmt
    obtain ⟨j, hj⟩ := List.mem_iff_getElem?.mp ht
    have hlt : j < (pairs (xs ++ [a])).length := by
      by_contra hc
      rw [List.getElem?_eq_none (by omega)] at hj
      cases hj
    have := honly j t (by rw [hpairs, List.getElem?_append_left hlt]; exact hj) hmt
    omega
  have hQ : ∀ t ∈ pairs (b :: ys), ¬ Meets pl t := by
    intro t ht hmt
    obtain ⟨j, hj⟩ := List.mem_iff_getElem?.mp ht
    have := honly (i + 1 + j) t (by
      rw [hpairs, List.getElem?_append_right (by omega), hPlen,
        show i + 1 + j - i = j + 1 by omega, List.getElem?_cons_succ]
      exact hj) hmt
    omega
  have sel := one_selected (Polyline.edgeMeets pl) (pairs (xs ++ [a])) (pairs (b :: ys)) (a, b)
    ((edgeMeets_real pl _).mpr hm)
    (fun t ht => Bool.eq_false_iff.mpr fun h => hP t ht ((edgeMeets_real pl t).mp h))
    (fun t ht => Bool.eq_false_iff.mpr fun h => hQ t ht ((edgeMeets_real pl t).mp h))
  have hX := crossing_spec pl (a, b) hm hin
  have hinter : (poly v false).intersectPlane pl = .ok ([crossing pl (a, b)], [i]) := by
    rw [intersectPlane_eq, hseg, hpairs, sel.1, sel.2, hPlen]
    simp only [List.map_cons, List.map_nil, edgePoint_real pl (a, b) hin]
  have hcut : (poly v false).cutByPlane pl = (poly v false).cutOpen pl (crossing pl (a, b)) i := by
    unfold Polyline.cutByPlane
    rw [hinter]
    rfl
  have hlen : v.length = i + 2 + ys.length := by rw [hv]; simp [hi]; omega
  have hedge : pyIndex ((poly v false).e.getD []) (i : ℤ) = .ok (i, i + 1) := by
    apply pyIndex_of_getElem?
    show (chainEdges v.length false)[i]? = some (i, i + 1)
    unfold chainEdges
    have hlt : i < v.length - 1 := by omega
    simp [hlt]
  have hvec : pyIndex ((chainSegs v false).map fun s => s.2 - s.1) (i : ℤ) = .ok (b - a) := by
    apply pyIndex_of_getElem?
    rw [hseg, List.getElem?_map, hs]
    rfl
  have hdot : V3.dot (b - a) (normalize3 pl.normal) = height pl b - height pl a := by
    rw [← height_sub, normalize3_real]
    have : len3 pl.n = 1 := hu
    simp only [Plane.normal, V3.dot_real, inner3, vec3, scale3, this, V3.sub_x, V3.sub_y, V3.sub_z]
    ring
  have htake : v.take (i + 1) = xs ++ [a] := by
    have e : v = (xs ++ [a]) ++ (b :: ys) := by rw [hv]; simp
    rw [e, ← hi]
    exact List.take_left' (by simp)
  have hdrop : v.drop (i + 1) = b :: ys := by
    have e : v = (xs ++ [a]) ++ (b :: ys) := by rw [hv]; simp
    rw [e, ← hi]
    exact List.drop_left' (by simp)
  have hopen : (poly v false).cutOpen pl (crossing pl (a, b)) i =
      if height pl a < height pl b then .ok (poly (crossing pl (a, b) :: v.drop (i + 1)) false)
      else .ok (poly (v.take (i + 1) ++ [crossing pl (a, b)]) false) := by
    unfold Polyline.cutOpen
    have hva : (poly v false).vArr = .ok v := rfl
    rw [hva, ok_bind]
    simp only
    rw [hedge, ok_bind, segmentVectors_eq, ok_bind, hvec, ok_bind, hdot]
    have e1 : pySlice v (((i + 1 : ℕ)) : ℤ) v.length = v.drop (i + 1) := pySlice_from v _ (by omega)
    have e2 : pySlice v 0 ((i : ℤ) + 1) = v.take (i + 1) := pySlice_to v (i + 1) (by omega)
    simp only [e1, e2, Num.lt_real, Num.lit_real, new_real _ false (by simp)]
    push_cast
    simp only [sub_pos]
  have hcf := chain_front pl ys b hQ
  have hcb := chain_front_end pl xs a hP
  have hXh : height pl (crossing pl (a, b)) = 0 := hX.1
  rw [hcut, hopen]
  by_cases hlt : height pl a < height pl b
  · have hab : height pl a ≤ 0 ∧ 0 ≤ height pl b := by
      unfold Meets at hm
      simp only at hm
      constructor
      · by_contra hc; exact hm.1 ⟨by linarith, by linarith⟩
      · by_contra hc; exact hm.2 ⟨by linarith, by linarith⟩
    refine ⟨_, _, if_pos hlt, hX.1, hX.2, ?_, Or.inl ⟨hlt, rfl, ?_⟩⟩
    · intro q hq
      rw [hdrop] at hq
      rcases List.mem_cons.mp hq with rfl | hq
      · exact hXh.ge
      · exact hcf.1 hab.2 q hq
    · rw [htake]
      exact hcb.2.1 hab.1
  · have hne : height pl b < height pl a := by
      rcases (not_lt.mp hlt).lt_or_eq with h | h
      · exact h
      · exfalso
        unfold Meets at hm
        simp only at hm
        apply hin
        rw [h] at hm
        have : height pl a = 0 := by
          rcases lt_trichotomy (height pl a) 0 with h' | h' | h'
          · exact absurd ⟨h', h'⟩ hm.2
          · exact h'
          · exact absurd ⟨h', h'⟩ hm.1
        exact ⟨this, by simp only; rw [h, this]⟩
    have hab : 0 ≤ height pl a ∧ height pl b ≤ 0 := by
      unfold Meets at hm
      simp only at hm
      constructor
      · by_contra hc; exact hm.2 ⟨by linarith, by linarith⟩
      · by_contra hc; exact hm.1 ⟨by linarith, by linarith⟩
    refine ⟨_, _, if_neg hlt, hX.1, hX.2, ?_, Or.inr ⟨hne, rfl, ?_⟩⟩
    · intro q hq
      rw [htake] at hq
      rcases List.mem_append.mp hq with hq | hq
      · exact hcb.1 hab.1 q hq
      · rw [List.mem_singleton] at hq
        rw [hq]; exact hXh.ge
    · rw [hdrop]
      exact hcf.2.1 hab.2

/-- number of edges meeting the plane -/
noncomputable def meetCount (pl : Plane ℝ) (v : List (V3 ℝ)) (closed : Bool) : ℕ :=
  open Classical in (chainSegs v closed).countP fun s => decide (Meets pl s)

theorem meetCount_eq (pl : Plane ℝ) (v : List (V3 ℝ)) (closed : Bool) :
    (Plane.flatnonzero ((chainSegs v closed).map (Polyline.edgeMeets pl))).length = meetCount pl v closed := by
  unfold Plane.flatnonzero meetCount
  rw [fnz_length, ← List.countP_eq_length_filter]
  apply List.countP_congr
  intro s _
  rw [edgeMeets_real]
  simp

theorem cut_count (pl : Plane ℝ) (v : List (V3 ℝ)) (closed : Bool)
    (h : meetCount pl v closed ≠ if closed then 2 else 1) :
    (poly v closed).cutByPlane pl = .error .ValueError := by
  unfold Polyline.cutByPlane
  rw [intersectPlane_eq, ok_bind]
  simp only [meetCount_eq]
  by_cases h0 : meetCount pl v closed = 0
  · rw [if_pos h0]
  · rw [if_neg h0]
    cases closed with
    | true =>
      simp only [if_true] at h
      have : (poly v true).closed = true := rfl
      rw [if_pos this, if_pos h]
    | false =>
      simp only [Bool.false_eq_true, if_false] at h
      have : ¬ (poly v false).closed = true := by simp [poly]
      rw [if_neg this, if_pos (by omega)]

/-- **C39.** Any number of edges other than one raises ValueError. -/
theorem C39_count (pl : Plane ℝ) (v : List (V3 ℝ)) (h : meetCount pl v false ≠ 1) :
    (poly v false).cutByPlane pl = .error .ValueError := cut_count pl v false (by simpa using h)

/-- **C40.** Any number of edges other than two raises ValueError. -/
theorem C40_count (pl : Plane ℝ) (v : List (V3 ℝ)) (h : meetCount pl v true ≠ 2) :
    (poly v true).cutByPlane pl = .error .ValueError := cut_count pl v true (by simpa using h)

theorem two_of_inPlane (pl : Plane ℝ) (s : V3 ℝ × V3 ℝ) (hin : InPlane pl s) : ∀ v : List (V3 ℝ), s ∈ pairs v →
    (open Classical in (pairs v).countP fun s => decide (Meets pl s)) = 1 → v = [s.1, s.2]
  | [], h, _ => by simp [pairs] at h
  | [a], h, _ => by simp [pairs] at h
  | a :: b :: w, h, hc => by
    classical
    have hm : ∀ t : V3 ℝ × V3 ℝ, height pl t.1 = 0 ∨ height pl t.2 = 0 → Meets pl t := by
      intro t ht
      unfold Meets
      rcases ht with ht | ht <;> simp [ht]
    have ep : pairs (a :: b :: w) = (a, b) :: pairs (b :: w) := by simp [pairs]
    rw [ep] at h hc
    rw [List.countP_cons] at hc
    rcases List.mem_cons.mp h with rfl | h
    · rw [if_pos (by simpa using hm _ (Or.inl hin.1))] at hc
      cases w with
      | nil => rfl
      | cons c w =>
        have ep' : pairs (b :: c :: w) = (b, c) :: pairs (c :: w) := by simp [pairs]
        rw [ep', List.countP_cons, if_pos (by simpa using hm (b, c) (Or.inl hin.2))] at hc
        omega
    · have h1 : 0 < (pairs (b :: w)).countP fun s => decide (Meets pl s) :=
        List.countP_pos_iff.mpr ⟨s, h, by simpa using hm s (Or.inl hin.1)⟩
      have h2 : ¬ Meets pl (a, b) := by
        intro h2
        rw [if_pos (by simpa using h2)] at hc
        omega
      rw [if_neg (by simpa using h2)] at hc
      have h3 := two_of_inPlane pl s hin (b :: w) h hc
      injection h3 with h3 _
      exact absurd (hm (a, b) (Or.inr (by rw [h3]; exact hin.1))) h2

theorem cut_in_plane (pl : Plane ℝ) (hu : UnitNormal pl) (a b : V3 ℝ) (h : InPlane pl (a, b)) :
    (poly ([a, b].map flPt) false).cutByPlane (flPlane pl) = .error .ValueError := by
  have hseg : chainSegs ([a, b].map flPt) false = [(flPt a, flPt b)] := rfl
  have hm : Polyline.edgeMeets (flPlane pl) (flPt a, flPt b) = true := by
    rw [edgeMeets_fl pl (a, b)]
    simp [Meets, h.1, h.2]
  have hp : Polyline.edgePoint (flPlane pl) (flPt a, flPt b) = nanRow := (edgePoint_fl pl (a, b)).2 h
  have hinter : (poly ([a, b].map flPt) false).intersectPlane (flPlane pl) = .ok ([nanRow], [0]) := by
    rw [intersectPlane_eq, hseg]
    simp [hm, hp, Plane.flatnonzero, Plane.flatnonzeroFrom]
  have hnan : ∀ l : List (V3 Fl), nanRow ∈ l → Polyline.new (rowsOf l) false = .error .ValueError := by
    intro l hl
    have : asPoints (rowsOf l) = .error .ValueError := by
      unfold asPoints rowsOf
      simp only
      rw [if_pos]
      · simp only [List.any_map, List.any_eq_true]
        refine ⟨nanRow, hl, ?_⟩
        simp [nanRow, V3.toList, npIsNan]
    unfold Polyline.new Polyline.setV
    rw [this]
  unfold Polyline.cutByPlane
  rw [hinter, ok_bind]
  simp only [List.length_singleton, one_ne_zero, if_false, poly, Bool.false_eq_true, gt_iff_lt, lt_irrefl]
  show (Polyline.cutOpen (poly ([a, b].map flPt) false) (flPlane pl) nanRow 0) = _
  unfold Polyline.cutOpen
  have hvec : (poly ([a, b].map flPt) false).segmentVectors = .ok [flPt b - flPt a] := by
    unfold Polyline.segmentVectors
    rw [segments_eq, hseg]
    rfl
  rw [hvec]
  simp only [poly, Polyline.vArr, ok_bind]
  have e1 : pyIndex (([(0, 1)] : List (ℕ × ℕ))) ((0 : ℕ) : ℤ) = .ok (0, 1) := rfl
  have e2 : pyIndex ([flPt b - flPt a]) ((0 : ℕ) : ℤ) = .ok (flPt b - flPt a) := rfl
  have e3 : (some (chainEdges ([a, b].map flPt).length false)).getD [] = [(0, 1)] := rfl
  rw [e3, e1, ok_bind, e2, ok_bind]
  split
  · exact hnan _ (by simp)
  · exact hnan _ (by simp)

/-- **C39.** The remaining open case: exactly one edge meets the plane, and it lies in the plane.  Its row is NaN and
the new polyline is rejected with ValueError. -/
theorem C39_in_plane (pl : Plane ℝ) (hu : UnitNormal pl) (v : List (V3 ℝ)) (hcount : meetCount pl v false = 1)
    (s : V3 ℝ × V3 ℝ) (hs : s ∈ chainSegs v false) (hin : InPlane pl s) :
    (poly (v.map flPt) false).cutByPlane (flPlane pl) = .error .ValueError := by
  have hv : v = [s.1, s.2] := by
    refine two_of_inPlane pl s hin v ?_ ?_
    · simpa [chainSegs, circuit] using hs
    · simpa [meetCount, chainSegs, circuit] using hcount
  rw [hv]
  exact cut_in_plane pl hu s.1 s.2 hin

/-! ### closed polylines -/

theorem first_true (m : List Bool) (h : true ∈ m) : ∃ k, pyIndex (Plane.flatnonzero m) 0 = .ok k ∧
    m[k]? = some true ∧ ∀ j, j < k → m[j]? ≠ some true := by
  obtain ⟨j0, hj0⟩ := List.mem_iff_getElem?.mp h
  have hmem : ∀ i, i ∈ Plane.flatnonzero m ↔ m[i]? = some true := by
    intro i; unfold Plane.flatnonzero; rw [mem_flatnonzeroFrom]; simp
  have hsort : (Plane.flatnonzero m).Pairwise (· < ·) := flatnonzeroFrom_sorted m 0
  cases hf : Plane.flatnonzero m with
  | nil =>
    have := (hmem j0).mpr hj0
    rw [hf] at this; simp at this
  | cons k ks =>
    refine ⟨k, rfl, (hmem k).mp (by rw [hf]; simp), ?_⟩
    intro j hj hc
    have h1 := (hmem j).mpr hc
    rw [hf] at h1 hsort
    rcases List.mem_cons.mp h1 with h1 | h1
    · omega
    · have := (List.pairwise_cons.mp hsort).1 j h1
      omega

theorem last_true (m : List Bool) (h : true ∈ m) : ∃ k, pyIndex (Plane.flatnonzero m) (-1) = .ok k ∧
    m[k]? = some true ∧ ∀ j, k < j → m[j]? ≠ some true := by
  obtain ⟨j0, hj0⟩ := List.mem_iff_getElem?.mp h
  have hmem : ∀ i, i ∈ Plane.flatnonzero m ↔ m[i]? = some true := by
    intro i; unfold Plane.flatnonzero; rw [mem_flatnonzeroFrom]; simp
  have hsort : (Plane.flatnonzero m).Pairwise (· < ·) := flatnonzeroFrom_sorted m 0
  have hne : Plane.flatnonzero m ≠ [] := by
    intro hf
    have := (hmem j0).mpr hj0
    rw [hf] at this; simp at this
  obtain ⟨ks, k, hk⟩ : ∃ ks k, Plane.flatnonzero m = ks ++ [k] :=
    ⟨_, _, (List.dropLast_append_getLast hne).symm⟩
  refine ⟨k, by rw [hk]; exact pyIndex_concat _ _, (hmem k).mp (by rw [hk]; simp), ?_⟩
  intro j hj hc
  have h1 := (hmem j).mpr hc
  rw [hk] at h1 hsort
  rcases List.mem_append.mp h1 with h1 | h1
  · have := (List.pairwise_append.mp hsort).2.2 j h1 k (by simp)
    omega
  · simp at h1; omega

theorem sign_eq (pl : Plane ℝ) (v : List (V3 ℝ)) : pl.sign v = v.map fun q => npSign (height pl q) := by
  unfold Plane.sign Plane.signedDistance
  rw [List.map_map]
  apply List.map_congr_left
  intro q _
  simp [signedDistance1_real]

theorem npSign_neg_iff (x : ℝ) : npSign x < 0 ↔ x < 0 := by
  rw [← not_le, npSign_nonneg, not_le]

theorem npSign_eq_neg_one (x : ℝ) : npSign x = -1 ↔ x < 0 := by
  rw [npSign_real]
  rcases lt_trichotomy x 0 with h | h | h
  · simp [h, not_lt.mpr h.le]
  · simp [h]
  · simp [h, not_lt.mpr h.le]; norm_num

theorem npSign_eq_zero (x : ℝ) : npSign x = 0 ↔ x = 0 := by
  rw [npSign_real]
  rcases lt_trichotomy x 0 with h | h | h
  · simp [h, not_lt.mpr h.le, h.ne]
  · simp [h]
  · simp [h, h.ne']

theorem frontMask_getElem? (pl : Plane ℝ) (v : List (V3 ℝ)) (k : ℕ) :
    (((pl.sign v).map fun s => Num.le (Num.lit 0) s)[k]? = some true) ↔ ∃ q, v[k]? = some q ∧ 0 ≤ height pl q := by
  rw [sign_eq, List.map_map, List.getElem?_map, Option.map_eq_some_iff]
  simp only [Function.comp, Num.le_real, Num.lit_real]
  push_cast
  simp only [npSign_nonneg]

theorem backMask_getElem? (pl : Plane ℝ) (v : List (V3 ℝ)) (k : ℕ) :
    (((pl.sign v).map fun s => Num.lt s (Num.lit 0))[k]? = some true) ↔ ∃ q, v[k]? = some q ∧ height pl q < 0 := by
  rw [sign_eq, List.map_map, List.getElem?_map, Option.map_eq_some_iff]
  simp only [Function.comp, Num.lt_real, Num.lit_real]
  push_cast
  simp only [npSign_neg_iff]

theorem closedStart_spec (pl : Plane ℝ) (v : List (V3 ℝ)) (hf : ∃ q ∈ v, 0 ≤ height pl q)
    (hb : ∃ q ∈ v, height pl q < 0) :
    ∃ r, r ≤ v.length ∧ Polyline.closedStart (pl.sign v) = .ok r ∧
      ∃ a b, (v.rotate r).head? = some a ∧ 0 ≤ height pl a ∧ (v.rotate r).getLast? = some b ∧ height pl b < 0 := by
  obtain ⟨qf, hqf, hf⟩ := hf
  obtain ⟨qb, hqb, hb⟩ := hb
  obtain ⟨jf, hjf⟩ := List.mem_iff_getElem?.mp hqf
  obtain ⟨jb, hjb⟩ := List.mem_iff_getElem?.mp hqb
  have hpos : 0 < v.length := by
    rcases v with _ | ⟨x, v⟩
    · simp at hqf
    · simp
  have hrot : ∀ r a b, r ≤ v.length → v[r % v.length]? = some a → v[(v.length - 1 + r) % v.length]? = some b →
      (v.rotate r).head? = some a ∧ (v.rotate r).getLast? = some b := by
    intro r a b hr ha hb
    rw [List.head?_eq_getElem?, List.getLast?_eq_getElem?, List.length_rotate,
      List.getElem?_rotate hpos, List.getElem?_rotate (by omega), Nat.zero_add]
    exact ⟨ha, hb⟩
  cases v with
  | nil => simp at hpos
  | cons v0 vs =>
    have hs0 : pyIndex (pl.sign (v0 :: vs)) 0 = .ok (npSign (height pl v0)) := by
      rw [sign_eq]; rfl
    unfold Polyline.closedStart
    rw [hs0, ok_bind]
    by_cases h0 : height pl v0 < 0
    · have hc : Num.eq (npSign (height pl v0)) (Num.lit (-1)) = true := by
        rw [Num.eq_real, Num.lit_real]; push_cast; exact (npSign_eq_neg_one _).mpr h0
      rw [if_pos hc]
      obtain ⟨k, h1, h2, h3⟩ := first_true ((pl.sign (v0 :: vs)).map fun s => Num.le (Num.lit 0) s)
        (List.mem_iff_getElem?.mpr ⟨jf, (frontMask_getElem? pl _ _).mpr ⟨qf, hjf, hf⟩⟩)
      obtain ⟨a, ha, hha⟩ := (frontMask_getElem? pl _ _).mp h2
      have hklt : k < (v0 :: vs).length := by
        by_contra hc
        rw [List.getElem?_eq_none (by omega)] at ha; cases ha
      have hk1 : 1 ≤ k := by
        by_contra hc
        have : k = 0 := by omega
        subst this
        simp at ha
        subst ha
        linarith
      have hb' : k - 1 < (v0 :: vs).length := by omega
      have hneg : height pl ((v0 :: vs)[k - 1]) < 0 := by
        by_contra hc
        exact h3 (k - 1) (by omega) ((frontMask_getElem? pl _ _).mpr
          ⟨_, List.getElem?_eq_getElem hb', not_lt.mp hc⟩)
      obtain ⟨e1, e2⟩ := hrot k a ((v0 :: vs)[k - 1]) hklt.le
        (by rw [Nat.mod_eq_of_lt hklt]; exact ha)
        (by
          rw [show (v0 :: vs).length - 1 + k = (k - 1) + (v0 :: vs).length by omega, Nat.add_mod_right,
            Nat.mod_eq_of_lt hb']
          exact List.getElem?_eq_getElem hb')
      exact ⟨k, hklt.le, h1, a, _, e1, hha, e2, hneg⟩
    · have hc : ¬ Num.eq (npSign (height pl v0)) (Num.lit (-1)) = true := by
        rw [Num.eq_real, Num.lit_real]; push_cast
        intro h; exact h0 ((npSign_eq_neg_one _).mp h)
      rw [if_neg hc]
      obtain ⟨k, h1, h2, h3⟩ := last_true ((pl.sign (v0 :: vs)).map fun s => Num.lt s (Num.lit 0))
        (List.mem_iff_getElem?.mpr ⟨jb, (backMask_getElem? pl _ _).mpr ⟨qb, hjb, hb⟩⟩)
      obtain ⟨b, hb1, hhb⟩ := (backMask_getElem? pl _ _).mp h2
      have hklt : k < (v0 :: vs).length := by
        by_contra hc
        rw [List.getElem?_eq_none (by omega)] at hb1; cases hb1
      have hex : ∃ a, (v0 :: vs)[(k + 1) % (v0 :: vs).length]? = some a ∧ 0 ≤ height pl a := by
        by_cases hk : k + 1 = (v0 :: vs).length
        · rw [hk, Nat.mod_self]
          exact ⟨v0, rfl, not_lt.mp h0⟩
        · have hlt : k + 1 < (v0 :: vs).length := by omega
          rw [Nat.mod_eq_of_lt hlt]
          refine ⟨_, List.getElem?_eq_getElem hlt, ?_⟩
          by_contra hc
          exact h3 (k + 1) (by omega) ((backMask_getElem? pl _ _).mpr
            ⟨_, List.getElem?_eq_getElem hlt, not_le.mp hc⟩)
      obtain ⟨a, ha, hha⟩ := hex
      obtain ⟨e1, e2⟩ := hrot (k + 1) a b (by omega) ha
        (by
          rw [show (v0 :: vs).length - 1 + (k + 1) = k + (v0 :: vs).length by omega, Nat.add_mod_right,
            Nat.mod_eq_of_lt hklt]
          exact hb1)
      refine ⟨k + 1, by omega, ?_, a, b, e1, hha, e2, hhb⟩
      have : pyIndex (Polyline.whereTrue ((pl.sign (v0 :: vs)).map fun s => Num.lt s (Num.lit 0))) (-1) = .ok k := h1
      rw [this]
      rfl

theorem chainSegs_rotate (v : List (V3 ℝ)) (r : ℕ) :
    chainSegs (v.rotate r) true = (chainSegs v true).rotate r := by
  have hl := chainSegs_length v true
  have hl' := chainSegs_length (v.rotate r) true
  simp only [if_true, List.length_rotate] at hl hl'
  apply List.ext_getElem?
  intro k
  by_cases hk : k < v.length
  · have hmod : (k + r) % v.length < v.length := Nat.mod_lt _ (by omega)
    rw [chainSegs_closed_getElem? _ k (by simpa using hk), List.getElem?_rotate (by omega), hl,
      chainSegs_closed_getElem? v _ hmod]
    simp only [List.getElem_rotate, List.length_rotate]
    congr 2
    congr 1
    rw [Nat.mod_add_mod, Nat.mod_add_mod]
    congr 1
    ring
  · rw [List.getElem?_eq_none (by omega), List.getElem?_eq_none (by rw [List.length_rotate]; omega)]

theorem chainSegs_closed_eq (w : List (V3 ℝ)) (a b : V3 ℝ) (ha : w.head? = some a) (hb : w.getLast? = some b) :
    chainSegs w true = pairs w ++ [(b, a)] := by
  have hne : w ≠ [] := by rintro rfl; simp at ha
  have e : w = w.dropLast ++ [b] := by
    rw [List.getLast?_eq_some_getLast hne] at hb
    injection hb with hb
    rw [← hb, List.dropLast_append_getLast hne]
  unfold chainSegs circuit
  simp only [if_true, ha, Option.toList_some]
  rw [e, List.append_assoc]
  exact pairs_append_cons _ _ _

open Classical in
theorem countP_one {β : Type} (m : β → Prop) (l : List β) (h : l.countP (fun s => decide (m s)) = 1) :
    ∃ P s Q, l = P ++ s :: Q ∧ m s ∧ (∀ t ∈ P, ¬ m t) ∧ ∀ t ∈ Q, ¬ m t := by
  have : 0 < l.countP (fun s => decide (m s)) := by omega
  rw [List.countP_pos_iff] at this
  obtain ⟨s, hs, hms⟩ := this
  obtain ⟨P, Q, rfl⟩ := List.append_of_mem hs
  simp only [decide_eq_true_eq] at hms
  rw [List.countP_append, List.countP_cons, if_pos (by simpa using hms)] at h
  refine ⟨P, s, Q, rfl, hms, ?_, ?_⟩
  · intro t ht
    have : P.countP (fun s => decide (m s)) = 0 := by omega
    rw [List.countP_eq_zero] at this
    simpa using this t ht
  · intro t ht
    have : Q.countP (fun s => decide (m s)) = 0 := by omega
    rw [List.countP_eq_zero] at this
    simpa using this t ht

theorem synthesized_spec (pl : Plane ℝ) (h : ℝ) (segs : List (V3 ℝ × V3 ℝ)) (i : ℤ) (s : V3 ℝ × V3 ℝ)
    (hi : pyIndex segs i = .ok s) (hh : 0 ≤ h)
    (hs : h ≠ 0 → (height pl s.1 < 0 ∧ 0 < height pl s.2) ∨ (0 < height pl s.1 ∧ height pl s.2 < 0)) :
    ∃ x, Polyline.synthesized pl (npSign h) segs i = .ok x ∧
      ((h = 0 ∧ x = none) ∨ (0 < h ∧ ∃ X, x = some X ∧ OnPlane pl X ∧ OnSegment s.1 s.2 X)) := by
  unfold Polyline.synthesized
  rw [hi]
  by_cases h0 : h = 0
  · have hc : Num.eq (npSign h) (Num.lit 0) = true := by
      rw [Num.eq_real, Num.lit_real]; push_cast; exact (npSign_eq_zero _).mpr h0
    rw [if_pos hc]
    exact ⟨none, rfl, Or.inl ⟨h0, rfl⟩⟩
  · have hc : ¬ Num.eq (npSign h) (Num.lit 0) = true := by
      rw [Num.eq_real, Num.lit_real]; push_cast
      intro h'; exact h0 ((npSign_eq_zero _).mp h')
    rw [if_neg hc]
    have hs := hs h0
    obtain ⟨X, hX⟩ := (C26_sides pl s.1 s.2).mpr (by
      refine ⟨?_, ?_, ?_⟩
      · rintro h'; rcases hs with h | h <;> linarith [h.1, h.2]
      · rintro h'; rcases hs with h | h <;> linarith [h.1, h.2, h'.1, h'.2]
      · rintro h'; rcases hs with h | h <;> linarith [h.1, h.2, h'.1, h'.2])
    obtain ⟨_, h2, h3⟩ := (C26_segment pl s.1 s.2 X).mp hX
    refine ⟨some X, ?_, Or.inr ⟨lt_of_le_of_ne hh (Ne.symm h0), X, rfl, h2, h3⟩⟩
    simp only [ok_bind, hX]
    rfl

/-- the point added at an end of the kept part: none if the end vertex is on the plane, otherwise the
crossing point of the edge leaving there -/
def AddedEnd (pl : Plane ℝ) (kept beyond : V3 ℝ) (added : List (V3 ℝ)) : Prop :=
  (height pl kept = 0 ∧ added = []) ∨
  (0 < height pl kept ∧ ∃ X, added = [X] ∧ OnPlane pl X ∧ OnSegment kept beyond X)

theorem onSegment_swap (a b q : V3 ℝ) (h : OnSegment a b q) : OnSegment b a q := by
  obtain ⟨t, h0, h1, rfl⟩ := h
  refine ⟨1 - t, by linarith, by linarith, ?_⟩
  ext <;> simp [along, vec3] <;> ring

/-- **C40.** A closed polyline of which exactly two edges meet the plane, with some vertex behind it:
read from a suitable start, the vertices are those in front or on the plane, in order, followed by
those behind; the cut is the open polyline of the former, with the crossing points added at the two
ends (unless the end vertex is itself on the plane). -/
theorem C40_cut (pl : Plane ℝ) (v : List (V3 ℝ)) (hcount : meetCount pl v true = 2)
    (hback : ∃ q ∈ v, height pl q < 0) :
    ∃ r F B f0 f1 b0 b1 S E, v.rotate r = F ++ B ∧
      (∀ q ∈ F, 0 ≤ height pl q) ∧ (∀ q ∈ B, height pl q < 0) ∧
      F.head? = some f0 ∧ F.getLast? = some f1 ∧ B.head? = some b0 ∧ B.getLast? = some b1 ∧
      AddedEnd pl f0 b1 S ∧ AddedEnd pl f1 b0 E ∧
      (poly v true).cutByPlane pl = .ok (poly (S ++ F ++ E) false) := by
  classical
  have hne : v ≠ [] := by
    rintro rfl
    obtain ⟨q, hq, _⟩ := hback
    simp at hq
  have hfront : ∃ q ∈ v, 0 ≤ height pl q := by
    by_contra hc
    push Not at hc
    have : meetCount pl v true = 0 := by
      unfold meetCount
      rw [List.countP_eq_zero]
      intro s hs
      obtain ⟨k, hk⟩ := List.mem_iff_getElem?.mp hs
      have hlen := chainSegs_length v true
      simp only [if_true] at hlen
      have hkl : k < v.length := by
        by_contra hc
        rw [List.getElem?_eq_none (by omega)] at hk; cases hk
      rw [chainSegs_closed_getElem? v k hkl] at hk
      injection hk with hk
      rw [← hk]
      simp only [decide_eq_true_eq]
      intro hm
      exact hm.2 ⟨hc _ (List.getElem_mem _), hc _ (List.getElem_mem _)⟩
    omega
  obtain ⟨r, hr, hstart, f0, b1, hw0, hf0, hw1, hb1⟩ := closedStart_spec pl v hfront hback
  obtain ⟨mapping, hre, _⟩ := C37_reindexed v hne r hr
  obtain ⟨w, hw⟩ : ∃ w, w = v.rotate r := ⟨_, rfl⟩
  rw [← hw] at hw0 hw1 hre
  have hsegs := chainSegs_closed_eq w f0 b1 hw0 hw1
  have hcw : (chainSegs w true).countP (fun s => decide (Meets pl s)) = 2 := by
    rw [hw, chainSegs_rotate, (List.rotate_perm _ r).countP_eq]
    exact hcount
  have hclose : Meets pl (b1, f0) := by
    constructor
    · rintro ⟨h1, _⟩; simp only at h1; linarith
    · rintro ⟨_, h1⟩; simp only at h1; linarith
  have hone : (pairs w).countP (fun s => decide (Meets pl s)) = 1 := by
    rw [hsegs, List.countP_append, List.countP_singleton, if_pos (by simpa using hclose)] at hcw
    omega
  obtain ⟨P, s, Q, hPQ, hs, hP, hQ⟩ := countP_one _ _ hone
  obtain ⟨xs, ys, hsplit, hxl⟩ := pairs_split w P.length s (by rw [hPQ]; simp)
  obtain ⟨a, b⟩ := s
  simp only at hsplit
  have hmid : pairs w = pairs (xs ++ [a]) ++ (a, b) :: pairs (b :: ys) := by rw [hsplit, pairs_mid]
  have hlenP : P.length = (pairs (xs ++ [a])).length := by rw [pairs_length]; simp [hxl]
  have hinj := List.append_inj (hPQ.symm.trans hmid) hlenP
  have hP' : ∀ t ∈ pairs (xs ++ [a]), ¬ Meets pl t := by rw [← hinj.1]; exact hP
  have hQ' : ∀ t ∈ pairs (b :: ys), ¬ Meets pl t := by
    have := hinj.2
    injection this with _ h2
    rw [← h2]; exact hQ
  -- the front part
  have hF : ∀ q ∈ xs ++ [a], 0 ≤ height pl q := by
    cases xs with
    | nil =>
      have : a = f0 := by rw [hsplit] at hw0; simpa using hw0
      simp [this, hf0]
    | cons x xs =>
      have : x = f0 := by rw [hsplit] at hw0; simpa using hw0
      have h := (chain_front pl (xs ++ [a]) x hP').1 (by rw [this]; exact hf0)
      exact h
  have hlast : (b :: ys).getLast? = some b1 := by
    rw [hsplit] at hw1
    rw [show xs ++ a :: b :: ys = (xs ++ [a]) ++ (b :: ys) by simp, List.getLast?_append] at hw1
    cases hl : (b :: ys).getLast? with
    | none => simp at hl
    | some z => rw [hl] at hw1; simpa using hw1
  have hB : ∀ q ∈ b :: ys, height pl q < 0 := by
    have hne' : b :: ys ≠ [] := by simp
    have e : b :: ys = (b :: ys).dropLast ++ [b1] := by
      rw [List.getLast?_eq_some_getLast hne'] at hlast
      injection hlast with hlast
      rw [← hlast, List.dropLast_append_getLast hne']
    rw [e] at hQ' ⊢
    exact (chain_front_end pl _ b1 hQ').2.2 hb1
  have hFa := hF a (by simp)
  have hBb := hB b (by simp)
  have hFhead : (xs ++ [a]).head? = some f0 := by
    rw [hsplit] at hw0
    cases xs with
    | nil => simpa using hw0
    | cons x xs => simpa using hw0
  have hwl : w.length = xs.length + 2 + ys.length := by rw [hsplit]; simp; omega
  -- the end index
  have hmaska : ((pl.sign w).map fun s => Num.le (Num.lit 0) s)[xs.length]? = some true := by
    rw [frontMask_getElem?]
    exact ⟨a, by rw [hsplit]; simp, hFa⟩
  obtain ⟨k, hk1, hk2, hk3⟩ := last_true ((pl.sign w).map fun s => Num.le (Num.lit 0) s)
    (List.mem_iff_getElem?.mpr ⟨_, hmaska⟩)
  have hk : k = xs.length := by
    have h1 : ¬ k < xs.length := fun h => hk3 _ h hmaska
    obtain ⟨q, hq, hqh⟩ := (frontMask_getElem? pl _ _).mp hk2
    by_contra hc
    have h2 : xs.length + 1 ≤ k := by omega
    rw [hsplit, show xs ++ a :: b :: ys = (xs ++ [a]) ++ (b :: ys) by simp,
      List.getElem?_append_right (by simpa using h2)] at hq
    have := hB q (List.mem_of_getElem? hq)
    linarith
  subst hk
  -- the two added points
  have hi1 : pyIndex (chainSegs w true) (-1) = .ok (b1, f0) := by rw [hsegs]; exact pyIndex_concat _ _
  have hi2 : pyIndex (chainSegs w true) (xs.length : ℤ) = .ok (a, b) := by
    apply pyIndex_of_getElem?
    rw [hsegs, hmid, List.append_assoc, List.getElem?_append_right (by rw [← hlenP, hxl]), ← hlenP, hxl]
    simp
  obtain ⟨x, hx, hxs⟩ := synthesized_spec pl (height pl f0) (chainSegs w true) (-1) (b1, f0) hi1 hf0
    (fun h => Or.inl ⟨hb1, lt_of_le_of_ne hf0 (Ne.symm h)⟩)
  obtain ⟨y, hy, hys⟩ := synthesized_spec pl (height pl a) (chainSegs w true) (xs.length : ℤ) (a, b) hi2 hFa
    (fun h => Or.inr ⟨lt_of_le_of_ne hFa (Ne.symm h), hBb⟩)
  refine ⟨r, xs ++ [a], b :: ys, f0, a, b, b1, Polyline.toArray x, Polyline.toArray y, ?_, hF, hB, hFhead,
    by simp, rfl, hlast, ?_, ?_, ?_⟩
  · rw [← hw, hsplit]; simp
  · rcases hxs with ⟨h1, rfl⟩ | ⟨h1, X, rfl, h2, h3⟩
    · exact Or.inl ⟨h1, rfl⟩
    · exact Or.inr ⟨h1, X, rfl, h2, onSegment_swap _ _ _ h3⟩
  · rcases hys with ⟨h1, rfl⟩ | ⟨h1, X, rfl, h2, h3⟩
    · exact Or.inl ⟨h1, rfl⟩
    · exact Or.inr ⟨h1, X, rfl, h2, h3⟩
  · unfold Polyline.cutByPlane
    rw [intersectPlane_eq, ok_bind]
    simp only [meetCount_eq, hcount]
    rw [if_neg (by norm_num), if_pos (show (poly v true).closed = true from rfl), if_neg (by simp)]
    unfold Polyline.cutClosed
    have hva : (poly v true).vArr = .ok v := rfl
    rw [hva, ok_bind, hstart, ok_bind, hre, ok_bind]
    unfold Polyline.cutWorking
    have hvw : (poly w true).vArr = .ok w := rfl
    simp only [hvw, ok_bind, segments_eq]
    have hs0 : pyIndex (pl.sign w) 0 = .ok (npSign (height pl f0)) := by
      rw [show (0 : ℤ) = ((0 : ℕ) : ℤ) from rfl]
      apply pyIndex_of_getElem?
      rw [sign_eq, List.getElem?_map, ← List.head?_eq_getElem?, hw0]
      rfl
    have hs1 : pyIndex (pl.sign w) ((xs.length : ℕ) : ℤ) = .ok (npSign (height pl a)) := by
      apply pyIndex_of_getElem?
      rw [sign_eq, List.getElem?_map, hsplit]
      simp
    have hk1' : pyIndex (Polyline.whereTrue ((pl.sign w).map fun s => Num.le (Num.lit 0) s)) (-1) = .ok xs.length := hk1
    have hsl : pySlice w 0 ((xs.length : ℤ) + 1) = xs ++ [a] := by
      have := pySlice_to w (xs.length + 1) (by omega)
      push_cast at this
      rw [this, hsplit, show xs ++ a :: b :: ys = (xs ++ [a]) ++ (b :: ys) by simp]
      exact List.take_left' (by simp)
    rw [hs0, ok_bind, hx, ok_bind, hk1', ok_bind, hs1, ok_bind, hy, ok_bind, hsl, new_real _ _ (by simp)]

/-- **C40.** Consequently every vertex of the cut is in front of or on the plane, both its ends are on
the plane, and it contains every vertex of the original in front of or on the plane. -/
theorem C40_front (pl : Plane ℝ) (v : List (V3 ℝ)) (hcount : meetCount pl v true = 2)
    (hback : ∃ q ∈ v, height pl q < 0) :
    ∃ w, (poly v true).cutByPlane pl = .ok (poly w false) ∧ (∀ q ∈ w, 0 ≤ height pl q) ∧
      (∀ q ∈ v, 0 ≤ height pl q → q ∈ w) ∧
      ∃ a b, w.head? = some a ∧ w.getLast? = some b ∧ OnPlane pl a ∧ OnPlane pl b := by
  obtain ⟨r, F, B, f0, f1, b0, b1, S, E, h1, h2, h3, h4, h5, h6, h7, h8, h9, h10⟩ := C40_cut pl v hcount hback
  refine ⟨_, h10, ?_, ?_, ?_⟩
  · intro q hq
    rw [List.append_assoc, List.mem_append, List.mem_append] at hq
    rcases hq with hq | hq | hq
    · rcases h8 with ⟨_, rfl⟩ | ⟨_, X, rfl, hX, _⟩
      · simp at hq
      · rw [List.mem_singleton] at hq; rw [hq]; exact (show height pl X = 0 from hX).ge
    · exact h2 q hq
    · rcases h9 with ⟨_, rfl⟩ | ⟨_, X, rfl, hX, _⟩
      · simp at hq
      · rw [List.mem_singleton] at hq; rw [hq]; exact (show height pl X = 0 from hX).ge
  · intro q hq hqh
    have : q ∈ v.rotate r := List.mem_rotate.mpr hq
    rw [h1, List.mem_append] at this
    rcases this with h | h
    · simp [h]
    · exact absurd hqh (not_le.mpr (h3 q h))
  · have hne : F ≠ [] := by rintro rfl; simp at h4
    have ha : ∃ a, (S ++ F ++ E).head? = some a ∧ OnPlane pl a := by
      rcases h8 with ⟨h0, rfl⟩ | ⟨_, X, rfl, hX, _⟩
      · exact ⟨f0, by simp [List.head?_append, h4], h0⟩
      · exact ⟨X, by simp, hX⟩
    have hb : ∃ a, (S ++ F ++ E).getLast? = some a ∧ OnPlane pl a := by
      rcases h9 with ⟨h0, rfl⟩ | ⟨_, X, rfl, hX, _⟩
      · exact ⟨f1, by simp [List.getLast?_append, h5], h0⟩
      · exact ⟨X, by simp, hX⟩
    obtain ⟨a, ha1, ha2⟩ := ha
    obtain ⟨b, hb1, hb2⟩ := hb
    exact ⟨a, b, ha1, hb1, ha2, hb2⟩

/-- **C40.** With two edges meeting the plane but nothing behind it (the plane only touches the
polyline), the search for a vertex behind fails with IndexError. -/
theorem C40_touching (pl : Plane ℝ) (v : List (V3 ℝ)) (hcount : meetCount pl v true = 2)
    (hback : ∀ q ∈ v, 0 ≤ height pl q) : (poly v true).cutByPlane pl = .error .IndexError := by
  unfold Polyline.cutByPlane
  rw [intersectPlane_eq, ok_bind]
  simp only [meetCount_eq, hcount]
  rw [if_neg (by norm_num), if_pos (show (poly v true).closed = true from rfl), if_neg (by simp)]
  unfold Polyline.cutClosed
  have hva : (poly v true).vArr = .ok v := rfl
  rw [hva, ok_bind]
  cases v with
  | nil => simp [meetCount, chainSegs, circuit, pairs] at hcount
  | cons v0 vs =>
    have hs0 : pyIndex (pl.sign (v0 :: vs)) 0 = .ok (npSign (height pl v0)) := by
      rw [sign_eq]; rfl
    have hstart : Polyline.closedStart (pl.sign (v0 :: vs)) = .error .IndexError := by
      unfold Polyline.closedStart
      rw [hs0, ok_bind]
      have hc : ¬ Num.eq (npSign (height pl v0)) (Num.lit (-1)) = true := by
        rw [Num.eq_real, Num.lit_real]; push_cast
        intro h
        have := (npSign_eq_neg_one _).mp h
        have := hback v0 (by simp)
        linarith
      rw [if_neg hc]
      have : Polyline.whereTrue ((pl.sign (v0 :: vs)).map fun s => Num.lt s (Num.lit 0)) = [] := by
        unfold Polyline.whereTrue Plane.flatnonzero
        apply fnz_false
        intro x hx
        by_contra hne
        have hx' : x = true := by simpa using hne
        subst hx'
        obtain ⟨k, hk⟩ := List.mem_iff_getElem?.mp hx
        obtain ⟨q, hq, hqh⟩ := (backMask_getElem? pl _ _).mp hk
        have := hback q (List.mem_of_getElem? hq)
        linarith
      rw [this]
      rfl
    rw [hstart]
    rfl

/-! ### cases -/

/-- the plane z = 0 -/
def groundPlane : Plane ℝ := ⟨⟨0, 0, 0⟩, ⟨0, 0, 1⟩⟩

theorem height_ground (q : V3 ℝ) : height groundPlane q = q.z := by
  simp [height, groundPlane, inner3, vec3]

/-- a square standing across the plane meets it in two edges and has vertices behind -/
example : meetCount groundPlane [⟨0, 0, 1⟩, ⟨1, 0, 1⟩, ⟨1, 0, -1⟩, ⟨0, 0, -1⟩] true = 2 ∧
    ∃ q ∈ ([⟨0, 0, 1⟩, ⟨1, 0, 1⟩, ⟨1, 0, -1⟩, ⟨0, 0, -1⟩] : List (V3 ℝ)), height groundPlane q < 0 := by
  refine ⟨?_, ⟨1, 0, -1⟩, by simp, by rw [height_ground]; norm_num⟩
  simp [meetCount, chainSegs, circuit, pairs, Meets, height_ground]

/-- a triangle standing on its tip only touches the plane, in two edges -/
example : meetCount groundPlane [⟨0, 0, 0⟩, ⟨1, 0, 1⟩, ⟨-1, 0, 1⟩] true = 2 ∧
    ∀ q ∈ ([⟨0, 0, 0⟩, ⟨1, 0, 1⟩, ⟨-1, 0, 1⟩] : List (V3 ℝ)), 0 ≤ height groundPlane q := by
  refine ⟨?_, by simp [height_ground]⟩
  simp [meetCount, chainSegs, circuit, pairs, Meets, height_ground]

/-- an open chain crossing the plane once, in its second edge -/
example : let v : List (V3 ℝ) := [⟨0, 0, 2⟩, ⟨0, 0, 1⟩, ⟨1, 0, -1⟩, ⟨2, 0, -1⟩]
    UnitNormal groundPlane ∧ (chainSegs v false)[1]? = some (⟨0, 0, 1⟩, ⟨1, 0, -1⟩) ∧
    Meets groundPlane (⟨0, 0, 1⟩, ⟨1, 0, -1⟩) ∧ ¬ InPlane groundPlane (⟨0, 0, 1⟩, ⟨1, 0, -1⟩) ∧
    ∀ j t, (chainSegs v false)[j]? = some t → Meets groundPlane t → j = 1 := by
  refine ⟨by simp [UnitNormal, groundPlane, len3], rfl, ?_, ?_, ?_⟩
  · simp [Meets, height_ground]
  · simp [InPlane, height_ground]
  · intro j t h hm
    rcases j with _ | _ | _ | j
    · simp [chainSegs, circuit, pairs] at h
      subst h
      simp [Meets, height_ground] at hm
    · rfl
    · simp [chainSegs, circuit, pairs] at h
      subst h
      simp [Meets, height_ground] at hm
    · simp [chainSegs, circuit, pairs] at h

end Blmath.Props
