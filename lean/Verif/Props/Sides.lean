import Verif.Proofs.Sides
import Verif.Props.Motion

/-!
C117: the two sides of a plane, and the direction and starting point of a polyline.
-/

namespace Blmath.Props
open Blmath Blmath.Geometry Blmath.Spec Blmath.Proofs Blmath.Proofs.SD

/-- **C117.** A plane and the same plane flipped cut lines, segments, meshes and polylines in the same points: every
intersection function returns the same value (or raises the same exception) for both. -/
theorem C117_intersections (pl pl' : Plane ℝ) (hu : UnitNormal pl) (hf : pl.flipped = .ok pl') :
    pl'.lineXsection = pl.lineXsection ∧ pl'.lineXsections = pl.lineXsections ∧
    pl'.lineSegmentXsection = pl.lineSegmentXsection ∧ pl'.lineSegmentXsections = pl.lineSegmentXsections ∧
    (∀ m, pl'.meshIntersectingFaces m = pl.meshIntersectingFaces m) ∧
    (∀ ver pk ko m nbh, pl'.meshXsections ver pk ko m nbh = pl.meshXsections ver pk ko m nbh) ∧
    (∀ ver pk ko m nbh, pl'.meshXsection ver pk ko m nbh = pl.meshXsection ver pk ko m nbh) ∧
    ∀ p : Polyline ℝ, p.intersectPlane pl' = p.intersectPlane pl := by
  obtain rfl := (flipped_iff hu).mp hf
  have hm : ∀ ver pk ko m nbh, (⟨pl.r0, scale3 (-1) pl.n⟩ : Plane ℝ).meshXsections ver pk ko m nbh =
      pl.meshXsections ver pk ko m nbh := by
    intro ver pk ko m nbh
    unfold Plane.meshXsections
    simp only [faces_flip, sliceComponents, intersectionMap, segments_flip]
  refine ⟨?_, ?_, segment_flip, segments_flip, faces_flip, hm, ?_, intersect_flip⟩
  · funext a b; exact xsection_flip a b
  · have : ∀ r : V3 ℝ, Num.eq (V3.dot r (⟨pl.r0, scale3 (-1) pl.n⟩ : Plane ℝ).normal) (Num.lit 0 : ℝ) =
        Num.eq (V3.dot r pl.normal) (Num.lit 0) := by
      intro r
      have e : V3.dot r (⟨pl.r0, scale3 (-1) pl.n⟩ : Plane ℝ).normal = -V3.dot r pl.normal := by
        simp only [V3.dot, scale3, Plane.normal]; ring
      rw [e, Bool.eq_iff_iff, Num.eq_real, Num.eq_real]; simp
    funext a b
    unfold Plane.lineXsections
    simp only [this, row_flip]
  · intro ver pk ko m nbh
    unfold Plane.meshXsection
    simp only [hm]

namespace SD

/-- the open cut, for a chain split at its meeting edge -/
theorem open_split (pl : Plane ℝ) (hu : UnitNormal pl) (xs ys : List (V3 ℝ)) (a b : V3 ℝ)
    (hm : Meets pl (a, b)) (hin : ¬ InPlane pl (a, b)) (h1 : ∀ s ∈ pairs (xs ++ [a]), ¬ Meets pl s)
    (h2 : ∀ s ∈ pairs (b :: ys), ¬ Meets pl s) :
    height pl a ≠ height pl b ∧ ∃ X, OnPlane pl X ∧ OnSegment a b X ∧
      (height pl a < height pl b → (poly (xs ++ a :: b :: ys) false).cutByPlane pl = .ok (poly (X :: b :: ys) false)) ∧
      (height pl b < height pl a → (poly (xs ++ a :: b :: ys) false).cutByPlane pl = .ok (poly (xs ++ [a, X]) false)) := by
  have hseg : chainSegs (xs ++ a :: b :: ys) false = pairs (xs ++ [a]) ++ (a, b) :: pairs (b :: ys) := by
    rw [← pairs_mid]; simp [chainSegs, circuit]
  have hl : (pairs (xs ++ [a])).length = xs.length := by rw [pairs_length]; simp
  obtain ⟨X, w, hc, hX, hX', _, hw⟩ := C39_cut pl hu (xs ++ a :: b :: ys) xs.length (a, b)
    (by rw [hseg, List.getElem?_append_right (by omega), hl]; simp) hm hin (by
      intro j t hj ht
      rw [hseg] at hj
      rcases lt_trichotomy j xs.length with h | h | h
      · rw [List.getElem?_append_left (by omega)] at hj
        exact absurd ht (h1 t (List.mem_of_getElem? hj))
      · exact h
      · rw [List.getElem?_append_right (by omega), hl] at hj
        obtain ⟨k, hk⟩ : ∃ k, j - xs.length = k + 1 := ⟨j - xs.length - 1, by omega⟩
        rw [hk, List.getElem?_cons_succ] at hj
        exact absurd ht (h2 t (List.mem_of_getElem? hj)))
  have hd : (xs ++ a :: b :: ys).drop (xs.length + 1) = b :: ys := by
    rw [show xs ++ a :: b :: ys = (xs ++ [a]) ++ (b :: ys) by simp]
    exact List.drop_left' (by simp)
  have ht : (xs ++ a :: b :: ys).take (xs.length + 1) = xs ++ [a] := by
    rw [show xs ++ a :: b :: ys = (xs ++ [a]) ++ (b :: ys) by simp]
    exact List.take_left' (by simp)
  rw [hd, ht] at hw
  refine ⟨?_, X, hX, hX', ?_, ?_⟩
  · rcases hw with ⟨h, _⟩ | ⟨h, _⟩
    · exact h.ne
    · exact h.ne'
  · intro h
    rcases hw with ⟨_, rfl, _⟩ | ⟨h', _⟩
    · exact hc
    · exact absurd h h'.not_gt
  · intro h
    rcases hw with ⟨h', _⟩ | ⟨_, rfl, _⟩
    · exact absurd h h'.not_gt
    · rw [hc]; simp

/-- the only meeting edge of an open chain -/
theorem one_meets (pl : Plane ℝ) (v : List (V3 ℝ)) (h : meetCount pl v false = 1) :
    ∃ xs a b ys, v = xs ++ a :: b :: ys ∧ Meets pl (a, b) ∧ (∀ s ∈ pairs (xs ++ [a]), ¬ Meets pl s) ∧
      ∀ s ∈ pairs (b :: ys), ¬ Meets pl s := by
  classical
  have hseg : chainSegs v false = pairs v := by simp [chainSegs, circuit]
  unfold meetCount at h
  rw [hseg] at h
  obtain ⟨A, s, Q, he, hs, hA, hQ⟩ := countP_one _ _ (by convert h)
  obtain ⟨a, b⟩ := s
  obtain ⟨xs, ys, hv, hi⟩ := pairs_split v A.length (a, b) (by rw [he]; simp)
  simp only at hv
  rw [hv, pairs_mid] at he
  have hl : (pairs (xs ++ [a])).length = A.length := by rw [pairs_length]; simp [hi]
  obtain ⟨e1, e2⟩ := List.append_inj he hl
  rw [List.cons.injEq] at e2
  exact ⟨xs, a, b, ys, hv, hs, by rw [e1]; exact hA, by rw [e2.2]; exact hQ⟩

theorem meetCount_reverse_open (pl : Plane ℝ) (v : List (V3 ℝ)) : meetCount pl v.reverse false = meetCount pl v false := by
  classical
  unfold meetCount
  have e : ∀ w : List (V3 ℝ), chainSegs w false = pairs w := fun w => by simp [chainSegs, circuit]
  rw [e, e, pairs_reverse, List.countP_reverse, List.countP_map]
  apply List.countP_congr
  intro s _
  simp only [Function.comp_apply, decide_eq_true_eq]
  exact meets_swap pl s.2 s.1

end SD
open SD

/-- **C117.** An open polyline with exactly one edge meeting the plane (and not lying in it): the cuts by the plane and by
the flipped plane are the two pieces of the polyline on either side of one crossing point, and their lengths add up to the
length of the whole. -/
theorem C117_two_pieces_open (pl pl' : Plane ℝ) (hu : UnitNormal pl) (hf : pl.flipped = .ok pl') (v : List (V3 ℝ))
    (hcount : meetCount pl v false = 1) (hin : ∀ s ∈ chainSegs v false, ¬ InPlane pl s) :
    ∃ xs ys X w w' L L', v = xs ++ ys ∧ xs ≠ [] ∧ ys ≠ [] ∧ OnPlane pl X ∧
      (poly v false).cutByPlane pl = .ok (poly w false) ∧ (poly v false).cutByPlane pl' = .ok (poly w' false) ∧
      ((w = xs ++ [X] ∧ w' = X :: ys) ∨ (w = X :: ys ∧ w' = xs ++ [X])) ∧
      (poly w false).totalLength = .ok L ∧ (poly w' false).totalLength = .ok L' ∧
      (poly v false).totalLength = .ok (L + L') := by
  obtain ⟨xs, a, b, ys, rfl, hm, h1, h2⟩ := one_meets pl v hcount
  have hn : ¬ InPlane pl (a, b) := hin _ (by
    rw [show chainSegs (xs ++ a :: b :: ys) false = pairs (xs ++ a :: b :: ys) by simp [chainSegs, circuit], pairs_mid]; simp)
  have hu' : UnitNormal pl' := by
    rw [(flipped_iff hu).mp hf]
    show len3 (scale3 (-1) pl.n) = 1
    rw [len3_scale, show len3 pl.n = 1 from hu]; norm_num
  have hh : ∀ q, height pl' q = -height pl q := by
    intro q; rw [(flipped_iff hu).mp hf]; exact height_flip q
  have hmf : ∀ s, Meets pl' s ↔ Meets pl s := by
    intro s; rw [(flipped_iff hu).mp hf]; exact meets_flip s
  have hnf : ∀ s, InPlane pl' s ↔ InPlane pl s := by
    intro s; rw [(flipped_iff hu).mp hf]; exact inPlane_flip s
  obtain ⟨hne, X, hX, hX', c1, c2⟩ := open_split pl hu xs ys a b hm hn h1 h2
  obtain ⟨_, Y, hY, hY', d1, d2⟩ := open_split pl' hu' xs ys a b ((hmf _).mpr hm) (mt (hnf _).mp hn)
    (fun s hs => mt (hmf s).mp (h1 s hs)) (fun s hs => mt (hmf s).mp (h2 s hs))
  have hYX : Y = X := by
    refine crossing_unique hne ?_ hY' hX hX'
    rw [onPlane_iff] at hY ⊢
    rw [hh] at hY; linarith
  subst hYX
  have len : pathLength (xs ++ [a, Y]) + pathLength (Y :: b :: ys) = pathLength (xs ++ a :: b :: ys) := by
    rw [pathLength_append xs a [Y], pathLength_append xs a (b :: ys), pathLength_cons, pathLength_cons, pathLength_cons,
      ← dist_split hX']
    simp [pathLength, pairs]; ring
  have tl : ∀ w, (poly w false).totalLength = .ok (pathLength w) := by
    intro w; rw [(C35_lengths w false).2]; simp [circuit]
  refine ⟨xs ++ [a], b :: ys, Y, ?_⟩
  rcases lt_or_gt_of_ne hne with h | h
  · refine ⟨_, _, _, _, by simp, by simp, by simp, hX, c1 h, d2 (by rw [hh, hh]; linarith), Or.inr ⟨rfl, by simp⟩, tl _, tl _, ?_⟩
    rw [tl, ← len, add_comm]
  · refine ⟨_, _, _, _, by simp, by simp, by simp, hX, c2 h, d1 (by rw [hh, hh]; linarith), Or.inl ⟨by simp, rfl⟩, tl _, tl _, ?_⟩
    rw [tl, ← len]

namespace SD

theorem added_unique {pl : Plane ℝ} {k b : V3 ℝ} {S S' : List (V3 ℝ)} (hb : height pl b < 0) (h : AddedEnd pl k b S)
    (h' : AddedEnd pl k b S') : S = S' := by
  rcases h with ⟨h0, rfl⟩ | ⟨h0, X, rfl, hX, hX'⟩ <;> rcases h' with ⟨h0', rfl⟩ | ⟨h0', Y, rfl, hY, hY'⟩
  · rfl
  · linarith
  · linarith
  · rw [crossing_unique (hb.trans h0).ne' hX hX' hY hY']

theorem added_reverse {pl : Plane ℝ} {k b : V3 ℝ} {S : List (V3 ℝ)} (h : AddedEnd pl k b S) : S.reverse = S := by
  rcases h with ⟨_, rfl⟩ | ⟨_, X, rfl, _⟩ <;> rfl

theorem meetCount_rotate (pl : Plane ℝ) (v : List (V3 ℝ)) (k : ℕ) :
    meetCount pl (v.rotate k) true = meetCount pl v true := by
  classical
  unfold meetCount
  rw [chainSegs_rotate]
  exact (List.rotate_perm _ _).countP_eq _

theorem meetCount_reverse_closed (pl : Plane ℝ) (v : List (V3 ℝ)) : meetCount pl v.reverse true = meetCount pl v true := by
  classical
  cases h : v with
  | nil => rfl
  | cons a t =>
    rw [← h]
    have hne : v ≠ [] := by rw [h]; simp
    have h1 := List.head?_eq_some_head hne
    have h2 := List.getLast?_eq_some_getLast hne
    unfold meetCount
    rw [chainSegs_closed_eq v _ _ h1 h2, chainSegs_closed_eq v.reverse _ _ (by rw [List.head?_reverse]; exact h2)
      (by rw [List.getLast?_reverse]; exact h1), pairs_reverse, List.countP_append, List.countP_append, List.countP_reverse,
      List.countP_map]
    congr 1
    · apply List.countP_congr
      intro s _
      simp only [Function.comp_apply, decide_eq_true_eq]
      exact meets_swap pl s.2 s.1
    · rw [List.countP_singleton, List.countP_singleton]
      simp only [decide_eq_true_eq]
      rw [if_congr (meets_swap pl _ _) rfl rfl]

/-- the reading of C40 is determined by the vertices up to the start -/
theorem closed_unique (pl : Plane ℝ) {v v' : List (V3 ℝ)} (hr : v ~r v') (hcount : meetCount pl v true = 2)
    (hback : ∃ q ∈ v, height pl q < 0) : (poly v' true).cutByPlane pl = (poly v true).cutByPlane pl := by
  have hcount' : meetCount pl v' true = 2 := by
    obtain ⟨k, rfl⟩ := hr
    rw [meetCount_rotate, hcount]
  have hback' : ∃ q ∈ v', height pl q < 0 := by
    obtain ⟨q, hq, h⟩ := hback
    exact ⟨q, (mem_rotated hr q).mp hq, h⟩
  obtain ⟨r, F, B, f0, f1, b0, b1, S, E, h1, h2, h3, h4, h5, h6, h7, h8, h9, h10⟩ := C40_cut pl v hcount hback
  obtain ⟨r', F', B', f0', f1', b0', b1', S', E', k1, k2, k3, k4, k5, k6, k7, k8, k9, k10⟩ := C40_cut pl v' hcount' hback'
  have hR : (F ++ B) ~r (F' ++ B') := by
    rw [← h1, ← k1]
    exact (List.IsRotated.symm ⟨r, rfl⟩).trans (hr.trans ⟨r', rfl⟩)
  obtain ⟨rfl, rfl⟩ := rotate_unique (P := fun q => 0 ≤ height pl q) h2 (fun x hx => not_le.mpr (h3 x hx)) k2
    (fun x hx => not_le.mpr (k3 x hx)) (by rintro rfl; simp at k4) (by rintro rfl; simp at k6) hR
  have e : ∀ {o : Option (V3 ℝ)} {x y}, o = some x → o = some y → x = y := by
    intro o x y h h'; rw [h] at h'; injection h'
  obtain rfl := e h4 k4
  obtain rfl := e h5 k5
  obtain rfl := e h6 k6
  obtain rfl := e h7 k7
  rw [h10, k10, added_unique (h3 _ (List.mem_of_getLast? h7)) h8 k8, added_unique (h3 _ (List.mem_of_head? h6)) h9 k9]

end SD

/-- **C117.** Cutting a closed polyline does not depend on the vertex it starts at: same result, same exception. -/
theorem C117_start (pl : Plane ℝ) (v : List (V3 ℝ)) (k : ℕ) :
    (poly (v.rotate k) true).cutByPlane pl = (poly v true).cutByPlane pl := by
  by_cases hc : meetCount pl v true = 2
  · by_cases hb : ∃ q ∈ v, height pl q < 0
    · exact closed_unique pl ⟨k, rfl⟩ hc hb
    · push Not at hb
      rw [C40_touching pl v hc hb, C40_touching pl _ (by rw [meetCount_rotate, hc])
        (fun q hq => hb q (List.mem_rotate.mp hq))]
  · rw [C40_count pl v hc, C40_count pl _ (by rw [meetCount_rotate]; exact hc)]

/-- **C117.** Cutting a closed polyline whose direction is reversed gives the reversed cut, and the same exceptions. -/
theorem C117_reversed_closed (pl : Plane ℝ) (v : List (V3 ℝ)) :
    (∃ w, (poly v true).cutByPlane pl = .ok (poly w false) ∧
      (poly v.reverse true).cutByPlane pl = .ok (poly w.reverse false)) ∨
    (∃ e, (poly v true).cutByPlane pl = .error e ∧ (poly v.reverse true).cutByPlane pl = .error e) := by
  by_cases hc : meetCount pl v true = 2
  · have hc' : meetCount pl v.reverse true = 2 := by rw [meetCount_reverse_closed, hc]
    by_cases hb : ∃ q ∈ v, height pl q < 0
    · refine Or.inl ?_
      obtain ⟨r, F, B, f0, f1, b0, b1, S, E, h1, h2, h3, h4, h5, h6, h7, h8, h9, h10⟩ := C40_cut pl v hc hb
      obtain ⟨r', F', B', f0', f1', b0', b1', S', E', k1, k2, k3, k4, k5, k6, k7, k8, k9, k10⟩ :=
        C40_cut pl v.reverse hc' (by obtain ⟨q, hq, h⟩ := hb; exact ⟨q, by simpa using hq, h⟩)
      have hR : (F.reverse ++ B.reverse) ~r (F' ++ B') := by
        have e1 : (F.reverse ++ B.reverse) ~r (B.reverse ++ F.reverse) := List.isRotated_append
        rw [← List.reverse_append (as := F), ← h1] at e1
        have e2 : (v.rotate r).reverse ~r v.reverse := List.IsRotated.reverse (List.IsRotated.symm ⟨r, rfl⟩)
        rw [← k1]
        exact e1.trans (e2.trans ⟨r', rfl⟩)
      obtain ⟨rfl, rfl⟩ := rotate_unique (P := fun q => 0 ≤ height pl q) (fun x hx => h2 x (by simpa using hx))
        (fun x hx => not_le.mpr (h3 x (by simpa using hx))) k2
        (fun x hx => not_le.mpr (k3 x hx)) (by rintro rfl; simp at k4) (by rintro rfl; simp at k6) hR
      rw [List.head?_reverse] at k4 k6
      rw [List.getLast?_reverse] at k5 k7
      have e : ∀ {o : Option (V3 ℝ)} {x y}, o = some x → o = some y → x = y := by
        intro o x y h h'; rw [h] at h'; injection h'
      obtain rfl := e h4 k5
      obtain rfl := e h5 k4
      obtain rfl := e h6 k7
      obtain rfl := e h7 k6
      refine ⟨_, h10, ?_⟩
      rw [k10, added_unique (h3 _ (List.mem_of_head? h6)) k8 h9, added_unique (h3 _ (List.mem_of_getLast? h7)) k9 h8,
        List.reverse_append, List.reverse_append, added_reverse h8, added_reverse h9, List.append_assoc]
    · push Not at hb
      exact Or.inr ⟨_, C40_touching pl v hc hb, C40_touching pl _ hc' (fun q hq => hb q (by simpa using hq))⟩
  · exact Or.inr ⟨_, C40_count pl v hc, C40_count pl _ (by rw [meetCount_reverse_closed]; exact hc)⟩

/-- **C117.** The same for open polylines.  (A single segment lying in the plane is rejected either way: `C39_in_plane`.) -/
theorem C117_reversed_open (pl : Plane ℝ) (hu : UnitNormal pl) (v : List (V3 ℝ))
    (hin : meetCount pl v false = 1 → ∀ s ∈ chainSegs v false, ¬ InPlane pl s) :
    (∃ w, (poly v false).cutByPlane pl = .ok (poly w false) ∧
      (poly v.reverse false).cutByPlane pl = .ok (poly w.reverse false)) ∨
    (∃ e, (poly v false).cutByPlane pl = .error e ∧ (poly v.reverse false).cutByPlane pl = .error e) := by
  by_cases hc : meetCount pl v false = 1
  · refine Or.inl ?_
    obtain ⟨xs, a, b, ys, rfl, hm, h1, h2⟩ := one_meets pl v hc
    have hn : ¬ InPlane pl (a, b) := hin hc _ (by
      rw [show chainSegs (xs ++ a :: b :: ys) false = pairs (xs ++ a :: b :: ys) by simp [chainSegs, circuit], pairs_mid]; simp)
    have hrev : ∀ (l : List (V3 ℝ)), (∀ s ∈ pairs l, ¬ Meets pl s) → ∀ s ∈ pairs l.reverse, ¬ Meets pl s := by
      intro l hl s hs
      rw [pairs_reverse, List.mem_reverse, List.mem_map] at hs
      obtain ⟨t, ht, rfl⟩ := hs
      exact mt (meets_swap pl t.2 t.1).mp (hl t ht)
    obtain ⟨hne, X, hX, hX', c1, c2⟩ := open_split pl hu xs ys a b hm hn h1 h2
    obtain ⟨_, Y, hY, hY', d1, d2⟩ := open_split pl hu ys.reverse xs.reverse b a ((meets_swap pl a b).mp hm)
      (fun h => hn ⟨h.2, h.1⟩) (by have := hrev _ h2; simpa using this) (by have := hrev _ h1; simpa using this)
    obtain rfl := crossing_unique hne hX hX' hY (onSegment_swap _ _ _ hY')
    have er : (xs ++ a :: b :: ys).reverse = ys.reverse ++ b :: a :: xs.reverse := by simp
    rw [er]
    rcases lt_or_gt_of_ne hne with h | h
    · exact ⟨_, c1 h, by rw [d2 h]; simp⟩
    · exact ⟨_, c2 h, by rw [d1 h]; simp⟩
  · exact Or.inr ⟨_, C39_count pl v hc, C39_count pl _ (by rw [meetCount_reverse_open]; exact hc)⟩

/-- **C117.** A closed polyline with exactly two edges meeting the plane and vertices strictly on both sides: the cuts by
the plane and by the flipped plane are the two arcs between the same two crossing points, run through in the direction of the
polyline; every vertex belongs to exactly one of them, and the lengths add up to the length of the whole. -/
theorem C117_two_pieces_closed (pl pl' : Plane ℝ) (hu : UnitNormal pl) (hf : pl.flipped = .ok pl') (v : List (V3 ℝ))
    (hcount : meetCount pl v true = 2) (hfront : ∃ q ∈ v, 0 < height pl q) (hback : ∃ q ∈ v, height pl q < 0) :
    ∃ r F B X Y L L', v.rotate r = F ++ B ∧ (∀ q ∈ F, 0 < height pl q) ∧ (∀ q ∈ B, height pl q < 0) ∧
      OnPlane pl X ∧ OnPlane pl Y ∧
      (poly v true).cutByPlane pl = .ok (poly (X :: F ++ [Y]) false) ∧
      (poly v true).cutByPlane pl' = .ok (poly (Y :: B ++ [X]) false) ∧
      (poly (X :: F ++ [Y]) false).totalLength = .ok L ∧ (poly (Y :: B ++ [X]) false).totalLength = .ok L' ∧
      (poly v true).totalLength = .ok (L + L') := by
  have hh : ∀ q, height pl' q = -height pl q := by
    intro q; rw [(flipped_iff hu).mp hf]; exact height_flip q
  have hcount' : meetCount pl' v true = 2 := by rw [(flipped_iff hu).mp hf, meetCount_flip, hcount]
  obtain ⟨p, hp, hp'⟩ := hfront
  obtain ⟨q, hq, hq'⟩ := hback
  have hz := none_on_plane hcount hp hp' hq hq'
  obtain ⟨r, F, B, f0, f1, b0, b1, S, E, h1, h2, h3, h4, h5, h6, h7, h8, h9, h10⟩ := C40_cut pl v hcount ⟨q, hq, hq'⟩
  obtain ⟨r', F', B', f0', f1', b0', b1', S', E', k1, k2, k3, k4, k5, k6, k7, k8, k9, k10⟩ :=
    C40_cut pl' v hcount' ⟨p, hp, by rw [hh]; linarith⟩
  have hzF : ∀ x ∈ F, 0 < height pl x := by
    intro x hx
    refine lt_of_le_of_ne (h2 x hx) (Ne.symm (hz x ?_))
    rw [← List.mem_rotate (n := r), h1]; simp [hx]
  have hzF' : ∀ x ∈ F', height pl x < 0 := by
    intro x hx
    have := k2 x hx
    rw [hh] at this
    refine lt_of_le_of_ne (by linarith) (hz x ?_)
    rw [← List.mem_rotate (n := r'), k1]; simp [hx]
  have hR : (F ++ B) ~r (B' ++ F') := by
    have e : (F' ++ B') ~r (B' ++ F') := List.isRotated_append
    rw [← k1] at e
    rw [← h1]
    exact (List.IsRotated.symm ⟨r, rfl⟩).trans (List.IsRotated.trans ⟨r', rfl⟩ e)
  obtain ⟨rfl, rfl⟩ := rotate_unique (P := fun q => 0 < height pl q) hzF (fun x hx => (h3 x hx).not_gt)
    (fun x hx => by have := k3 x hx; rw [hh] at this; show 0 < height pl x; linarith)
    (fun x hx => (hzF' x hx).not_gt) (by rintro rfl; simp at k6) (by rintro rfl; simp at k4) hR
  have e : ∀ {o : Option (V3 ℝ)} {x y}, o = some x → o = some y → x = y := by
    intro o x y h h'; rw [h] at h'; injection h'
  obtain rfl := e h4 k6
  obtain rfl := e h5 k7
  obtain rfl := e h6 k4
  obtain rfl := e h7 k5
  have m0 := hzF _ (List.mem_of_head? h4)
  have m1 := hzF _ (List.mem_of_getLast? h5)
  have n0 := h3 _ (List.mem_of_head? h6)
  have n1 := h3 _ (List.mem_of_getLast? h7)
  obtain ⟨X, rfl, hX, hX'⟩ : ∃ X, S = [X] ∧ OnPlane pl X ∧ OnSegment f0 b1 X := by
    rcases h8 with ⟨h, _⟩ | ⟨_, h⟩
    · linarith
    · exact h
  obtain ⟨Y, rfl, hY, hY'⟩ : ∃ X, E = [X] ∧ OnPlane pl X ∧ OnSegment f1 b0 X := by
    rcases h9 with ⟨h, _⟩ | ⟨_, h⟩
    · linarith
    · exact h
  obtain ⟨Z, rfl, hZ, hZ'⟩ : ∃ X, S' = [X] ∧ OnPlane pl' X ∧ OnSegment b0 f1 X := by
    rcases k8 with ⟨h, _⟩ | ⟨_, h⟩
    · rw [hh] at h; linarith
    · exact h
  obtain ⟨W, rfl, hW, hW'⟩ : ∃ X, E' = [X] ∧ OnPlane pl' X ∧ OnSegment b1 f0 X := by
    rcases k9 with ⟨h, _⟩ | ⟨_, h⟩
    · rw [hh] at h; linarith
    · exact h
  have op : ∀ x, OnPlane pl' x → OnPlane pl x := by
    intro x hx
    rw [onPlane_iff] at hx ⊢
    rw [hh] at hx; linarith
  obtain rfl := crossing_unique (by linarith) hY hY' (op _ hZ) (onSegment_swap _ _ _ hZ')
  obtain rfl := crossing_unique (by linarith) hX hX' (op _ hW) (onSegment_swap _ _ _ hW')
  have tl : ∀ w, (poly w false).totalLength = .ok (pathLength w) := by
    intro w; rw [(C35_lengths w false).2]; simp [circuit]
  refine ⟨r, F, B, X, Y, _, _, h1, hzF, h3, hX, hY, h10, k10, tl _, tl _, ?_⟩
  rw [(C35_lengths v true).2]
  have hrot : pathLength (circuit v true) = pathLength (circuit (v.rotate r) true) := by
    show ((chainSegs v true).map fun s => dist3 s.1 s.2).sum = ((chainSegs (v.rotate r) true).map fun s => dist3 s.1 s.2).sum
    rw [chainSegs_rotate]
    exact (((List.rotate_perm _ _).map _).sum_eq).symm
  have e1 : pathLength (X :: F ++ [Y]) = dist3 X f0 + pathLength F + dist3 f1 Y := by
    rw [List.cons_append, show X :: (F ++ [Y]) = [X] ++ (F ++ [Y]) from rfl,
      pathLength_join [X] (F ++ [Y]) X f0 rfl (by rw [List.head?_append, h4]; rfl), pathLength_join F [Y] f1 Y h5 rfl]
    simp [pathLength, pairs]; ring
  have e2 : pathLength (Y :: B ++ [X]) = dist3 Y b0 + pathLength B + dist3 b1 X := by
    rw [List.cons_append, show Y :: (B ++ [X]) = [Y] ++ (B ++ [X]) from rfl,
      pathLength_join [Y] (B ++ [X]) Y b0 rfl (by rw [List.head?_append, h6]; rfl), pathLength_join B [X] b1 X h7 rfl]
    simp [pathLength, pairs]; ring
  rw [hrot, h1, circuit_length (F ++ B) f0 b1 (by rw [List.head?_append, h4]; rfl)
    (by rw [List.getLast?_append, h7]; rfl), pathLength_join F B f1 b0 h5 h6, e1, e2, ← dist_split hY',
    ← dist_split (onSegment_swap _ _ _ hX')]
  congr 1
  ring

/-- the square of the example of C40 also has vertices in front -/
example : UnitNormal groundPlane ∧
    meetCount groundPlane [⟨0, 0, 1⟩, ⟨1, 0, 1⟩, ⟨1, 0, -1⟩, ⟨0, 0, -1⟩] true = 2 ∧
    (∃ q ∈ ([⟨0, 0, 1⟩, ⟨1, 0, 1⟩, ⟨1, 0, -1⟩, ⟨0, 0, -1⟩] : List (V3 ℝ)), 0 < height groundPlane q) ∧
    ∃ q ∈ ([⟨0, 0, 1⟩, ⟨1, 0, 1⟩, ⟨1, 0, -1⟩, ⟨0, 0, -1⟩] : List (V3 ℝ)), height groundPlane q < 0 := by
  refine ⟨by simp [UnitNormal, groundPlane, len3], ?_, ⟨⟨0, 0, 1⟩, by simp, by rw [height_ground]; norm_num⟩,
    ⟨1, 0, -1⟩, by simp, by rw [height_ground]; norm_num⟩
  simp [meetCount, chainSegs, circuit, pairs, Meets, height_ground]

/-- an open chain through the plane -/
example : meetCount groundPlane [⟨0, 0, 2⟩, ⟨0, 0, 1⟩, ⟨1, 0, -1⟩, ⟨2, 0, -1⟩] false = 1 ∧
    ∀ s ∈ chainSegs ([⟨0, 0, 2⟩, ⟨0, 0, 1⟩, ⟨1, 0, -1⟩, ⟨2, 0, -1⟩] : List (V3 ℝ)) false, ¬ InPlane groundPlane s := by
  constructor
  · simp [meetCount, chainSegs, circuit, pairs, Meets, height_ground]
  · simp [chainSegs, circuit, pairs, InPlane, height_ground]

end Blmath.Props
