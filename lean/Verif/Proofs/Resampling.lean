import Verif.Spec.Resampling
import Verif.Props.Sides
import Verif.Props.Apex

/-!
Lemmas for C124: one point added to a segment.
-/

namespace Blmath.Proofs.RP
open Blmath Blmath.Geometry Blmath.Spec Blmath.Props Blmath.Proofs Blmath.Proofs.SD Blmath.Props.SD Blmath.Numerics

/-! ### segments -/

theorem seg_order (a b : V3 ℝ) (s t : ℝ) (h0 : 0 ≤ s) (h : s ≤ t) (h1 : t ≤ 1) :
    OnSegment a (along a t (vec3 a b)) (along a s (vec3 a b)) ∧
    OnSegment (along a s (vec3 a b)) b (along a t (vec3 a b)) := by
  constructor
  · rcases eq_or_lt_of_le (h0.trans h) with ht | ht
    · obtain rfl : s = 0 := by linarith
      obtain rfl := ht
      exact ⟨0, le_rfl, zero_le_one, by ext <;> simp [along]⟩
    · refine ⟨s / t, by positivity, by rw [div_le_one ht]; exact h, ?_⟩
      ext <;> simp [along, vec3] <;> field_simp
  · rcases eq_or_lt_of_le (h.trans h1) with hs | hs
    · obtain rfl := hs
      obtain rfl : t = 1 := by linarith
      exact ⟨0, le_rfl, zero_le_one, by ext <;> simp [along]⟩
    · have : 0 < 1 - s := by linarith
      refine ⟨(t - s) / (1 - s), div_nonneg (by linarith) this.le, by rw [div_le_one this]; linarith, ?_⟩
      ext <;> simp [along, vec3] <;> field_simp <;> ring

theorem height_seg (pl : Plane ℝ) (a b : V3 ℝ) (t : ℝ) :
    height pl (along a t (vec3 a b)) = height pl a + t * (height pl b - height pl a) := by
  simp only [height, inner3, vec3, along]; ring

/-- the point of the segment on the plane comes before the points on the far side -/
theorem beyond {pl : Plane ℝ} {a b q X : V3 ℝ} (hq : OnSegment a b q) (hX : OnSegment a b X) (h0 : OnPlane pl X)
    (h : (height pl a < 0 ∧ 0 < height pl b ∧ 0 < height pl q) ∨ (0 < height pl a ∧ height pl b < 0 ∧ height pl q < 0)) :
    OnSegment a q X ∧ OnSegment X b q := by
  obtain ⟨t, t0, t1, rfl⟩ := hq
  obtain ⟨s, s0, s1, rfl⟩ := hX
  rw [onPlane_iff, height_seg] at h0
  simp only [height_seg] at h
  refine seg_order a b s t s0 ?_ t1
  rcases h with ⟨ha, hb, hq⟩ | ⟨ha, hb, hq⟩ <;> nlinarith

theorem before {pl : Plane ℝ} {a b q X : V3 ℝ} (hq : OnSegment a b q) (hX : OnSegment a b X) (h0 : OnPlane pl X)
    (h : (height pl a < 0 ∧ 0 < height pl b ∧ height pl q < 0) ∨ (0 < height pl a ∧ height pl b < 0 ∧ 0 < height pl q)) :
    OnSegment q b X ∧ OnSegment a X q := by
  have := beyond (onSegment_swap _ _ _ hq) (onSegment_swap _ _ _ hX) h0 (by tauto)
  exact ⟨onSegment_swap _ _ _ this.1, onSegment_swap _ _ _ this.2⟩

theorem seg_pos {pl : Plane ℝ} {a b q : V3 ℝ} (hq : OnSegment a b q) (ha : 0 < height pl a) (hb : 0 < height pl b) :
    0 < height pl q := by
  obtain ⟨t, t0, t1, rfl⟩ := hq
  rw [height_seg]
  rcases t1.lt_or_eq with h | rfl
  · nlinarith [mul_pos (sub_pos.mpr h) ha, mul_nonneg t0 hb.le]
  · linarith

theorem seg_nonneg {pl : Plane ℝ} {a b q : V3 ℝ} (hq : OnSegment a b q) (ha : 0 ≤ height pl a) (hb : 0 ≤ height pl b) :
    0 ≤ height pl q := by
  obtain ⟨t, t0, t1, rfl⟩ := hq
  rw [height_seg]
  nlinarith

theorem seg_neg {pl : Plane ℝ} {a b q : V3 ℝ} (hq : OnSegment a b q) (ha : height pl a < 0) (hb : height pl b < 0) :
    height pl q < 0 := by
  obtain ⟨t, t0, t1, rfl⟩ := hq
  rw [height_seg]
  rcases t1.lt_or_eq with h | rfl
  · nlinarith [mul_neg_of_pos_of_neg (sub_pos.mpr h) ha, mul_nonpos_of_nonneg_of_nonpos t0 hb.le]
  · linarith

theorem meets_iff {pl : Plane ℝ} {a b : V3 ℝ} (ha : height pl a ≠ 0) (hb : height pl b ≠ 0) :
    Props.Meets pl (a, b) ↔ (height pl a < 0 ∧ 0 < height pl b) ∨ (0 < height pl a ∧ height pl b < 0) := by
  unfold Props.Meets
  rcases lt_or_gt_of_ne ha with h | h <;> rcases lt_or_gt_of_ne hb with h' | h' <;>
    simp [h, h', h.le, h'.le, h.not_gt, h'.not_gt]

/-! ### the segments of the chain -/

theorem added_segs {closed : Bool} {u u' : List (V3 ℝ)} (h : AddPoint closed u u') :
    ∃ A C a b q, OnSegment a b q ∧ chainSegs u closed = A ++ (a, b) :: C ∧
      chainSegs u' closed = A ++ (a, q) :: (q, b) :: C ∧ a ∈ u ∧ b ∈ u ∧ q ∈ u' := by
  cases h with
  | inner _ pre a b post q h =>
    refine ⟨pairs (pre ++ [a]), pairs (b :: (post ++ if closed then (pre ++ a :: b :: post).head?.toList else [])), a, b, q, h,
      ?_, ?_, by simp, by simp, by simp⟩
    · unfold chainSegs circuit
      rw [List.append_assoc, List.cons_append, List.cons_append, pairs_mid]
    · unfold chainSegs circuit
      rw [List.append_assoc, List.cons_append, List.cons_append, pairs_mid]
      congr 2
      rw [List.cons_append, pairs]
      congr 3
      cases pre <;> simp
  | closing _ a b q hb ha h =>
    have hne : u ≠ [] := by rintro rfl; simp at ha
    have hh : (u ++ [q]).head? = some b := by rw [List.head?_append, hb]; rfl
    refine ⟨pairs u, [], a, b, q, h, chainSegs_closed_eq u b a hb ha, ?_, List.mem_of_getLast? ha, List.mem_of_head? hb, by simp⟩
    rw [chainSegs_closed_eq (u ++ [q]) b q hh (by simp)]
    have e : u = u.dropLast ++ [a] := by
      rw [List.getLast?_eq_some_getLast hne] at ha
      injection ha with ha
      rw [← ha, List.dropLast_append_getLast hne]
    conv_lhs => rw [e]
    rw [List.append_assoc]
    show pairs (u.dropLast ++ a :: q :: []) ++ _ = _
    rw [pairs_mid, ← e]
    simp [pairs]

theorem added_mem {closed : Bool} {u u' : List (V3 ℝ)} (h : AddPoint closed u u') : u.Sublist u' := by
  cases h with
  | inner _ pre a b post q h =>
    exact List.Sublist.append_left (List.Sublist.cons_cons _ (List.sublist_cons_self _ _)) _
  | closing _ a b q hb ha h => exact List.sublist_append_left _ _

theorem added_ends {u u' : List (V3 ℝ)} (h : AddPoint false u u') : u'.head? = u.head? ∧ u'.getLast? = u.getLast? := by
  cases h with
  | inner _ pre a b post q h => exact ⟨by cases pre <;> simp, by simp [List.getLast?_append]⟩

theorem added_head {c : Bool} {u u' : List (V3 ℝ)} (h : AddPoint c u u') : u'.head? = u.head? := by
  cases h with
  | inner _ pre a b post q h => cases pre <;> simp
  | closing _ a b q hb ha h => rw [List.head?_append, hb]; rfl

theorem added_length {closed : Bool} {u u' : List (V3 ℝ)} (h : AddPoint closed u u') :
    pathLength (circuit u' closed) = pathLength (circuit u closed) := by
  obtain ⟨A, C, a, b, q, hq, e, e', _⟩ := added_segs h
  unfold pathLength
  unfold chainSegs at e e'
  rw [e, e']
  simp only [List.map_append, List.map_cons, List.sum_append, List.sum_cons]
  rw [← dist_split hq]
  ring

/-! ### where the segments meet the plane -/

theorem added_points {pl : Plane ℝ} {closed : Bool} {u u' : List (V3 ℝ)} (h : AddPoint closed u u')
    (hz : ∀ x ∈ u', height pl x ≠ 0) :
    ((chainSegs u' closed).filter (Polyline.edgeMeets pl)).map (Polyline.edgePoint pl) =
      ((chainSegs u closed).filter (Polyline.edgeMeets pl)).map (Polyline.edgePoint pl) := by
  have hsub := (added_mem h).subset
  obtain ⟨A, C, a, b, q, hq, e, e', ha, hb, hqm⟩ := added_segs h
  have ha := hz a (hsub ha)
  have hb := hz b (hsub hb)
  have hq0 := hz q hqm
  rw [e, e']
  simp only [List.filter_append, List.map_append, List.filter_cons]
  congr 1
  have key : ∀ x y : V3 ℝ, height pl x ≠ 0 → height pl y ≠ 0 → Polyline.edgeMeets pl (x, y) = true → OnSegment a b x → OnSegment a b y →
      (∀ X, OnSegment x y X → OnPlane pl X → OnSegment a b X) → height pl a ≠ height pl b →
      Polyline.edgePoint pl (x, y) = Polyline.edgePoint pl (a, b) ∨ ¬ Polyline.edgeMeets pl (a, b) = true := by
    intro x y hx hy hm _ _ hX hab
    by_cases hm' : Polyline.edgeMeets pl (a, b) = true
    · left
      rw [edgePoint_real pl _ (by simp [Props.InPlane, hx]), edgePoint_real pl _ (by simp [Props.InPlane, ha])]
      obtain ⟨p1, p2⟩ := crossing_spec pl (x, y) ((edgeMeets_real _ _).mp hm) (by simp [Props.InPlane, hx])
      obtain ⟨r1, r2⟩ := crossing_spec pl (a, b) ((edgeMeets_real _ _).mp hm') (by simp [Props.InPlane, ha])
      exact crossing_unique hab p1 (hX _ p2 p1) r1 r2
    · exact Or.inr hm'
  have sub1 : ∀ X, OnSegment a q X → OnSegment a b X := by
    rintro X ⟨s, s0, s1, rfl⟩
    obtain ⟨t, t0, t1, rfl⟩ := hq
    exact ⟨s * t, by positivity, by nlinarith, by ext <;> simp [along, vec3] <;> ring⟩
  have sub2 : ∀ X, OnSegment q b X → OnSegment a b X := by
    rintro X ⟨s, s0, s1, rfl⟩
    obtain ⟨t, t0, t1, rfl⟩ := hq
    exact ⟨t + s * (1 - t), by nlinarith [mul_nonneg s0 (sub_nonneg.mpr t1)], by nlinarith, by ext <;> simp [along, vec3] <;> ring⟩
  have on1 : OnSegment a b a := ⟨0, le_rfl, zero_le_one, by ext <;> simp [along]⟩
  have on2 : OnSegment a b b := ⟨1, zero_le_one, le_rfl, by ext <;> simp [along, vec3]⟩
  have hab := (edgeMeets_real pl (a, b)).trans (meets_iff ha hb)
  have haq := (edgeMeets_real pl (a, q)).trans (meets_iff ha hq0)
  have hqb := (edgeMeets_real pl (q, b)).trans (meets_iff hq0 hb)
  rcases lt_or_gt_of_ne ha with h1 | h1 <;> rcases lt_or_gt_of_ne hb with h2 | h2
  · have h3 := seg_neg hq h1 h2
    rw [if_neg (by rw [haq]; rintro (h | h) <;> linarith), if_neg (by rw [hqb]; rintro (h | h) <;> linarith),
      if_neg (by rw [hab]; rintro (h | h) <;> linarith)]
  · rw [if_pos (show Polyline.edgeMeets pl (a, b) = true by rw [hab]; exact Or.inl ⟨h1, h2⟩)]
    rcases lt_or_gt_of_ne hq0 with h3 | h3
    · rw [if_neg (by rw [haq]; rintro (h | h) <;> linarith), if_pos (show Polyline.edgeMeets pl (q, b) = true by rw [hqb]; exact Or.inl ⟨h3, h2⟩)]
      rw [List.map_cons, List.map_cons, (key q b hq0 hb (hqb.mpr (Or.inl ⟨h3, h2⟩)) hq on2 (fun X h _ => sub2 X h)
        (by linarith)).resolve_right (not_not.mpr (hab.mpr (Or.inl ⟨h1, h2⟩)))]
    · rw [if_pos (show Polyline.edgeMeets pl (a, q) = true by rw [haq]; exact Or.inl ⟨h1, h3⟩), if_neg (by rw [hqb]; rintro (h | h) <;> linarith)]
      rw [List.map_cons, List.map_cons, (key a q ha hq0 (haq.mpr (Or.inl ⟨h1, h3⟩)) on1 hq (fun X h _ => sub1 X h)
        (by linarith)).resolve_right (not_not.mpr (hab.mpr (Or.inl ⟨h1, h2⟩)))]
  · rw [if_pos (show Polyline.edgeMeets pl (a, b) = true by rw [hab]; exact Or.inr ⟨h1, h2⟩)]
    rcases lt_or_gt_of_ne hq0 with h3 | h3
    · rw [if_pos (show Polyline.edgeMeets pl (a, q) = true by rw [haq]; exact Or.inr ⟨h1, h3⟩), if_neg (by rw [hqb]; rintro (h | h) <;> linarith)]
      rw [List.map_cons, List.map_cons, (key a q ha hq0 (haq.mpr (Or.inr ⟨h1, h3⟩)) on1 hq (fun X h _ => sub1 X h)
        (by linarith)).resolve_right (not_not.mpr (hab.mpr (Or.inr ⟨h1, h2⟩)))]
    · rw [if_neg (by rw [haq]; rintro (h | h) <;> linarith), if_pos (show Polyline.edgeMeets pl (q, b) = true by rw [hqb]; exact Or.inr ⟨h3, h2⟩)]
      rw [List.map_cons, List.map_cons, (key q b hq0 hb (hqb.mpr (Or.inr ⟨h3, h2⟩)) hq on2 (fun X h _ => sub2 X h)
        (by linarith)).resolve_right (not_not.mpr (hab.mpr (Or.inr ⟨h1, h2⟩)))]
  · have h3 := seg_pos hq h1 h2
    rw [if_neg (by rw [haq]; rintro (h | h) <;> linarith), if_neg (by rw [hqb]; rintro (h | h) <;> linarith),
      if_neg (by rw [hab]; rintro (h | h) <;> linarith)]

theorem meetCount_filter (pl : Plane ℝ) (v : List (V3 ℝ)) (closed : Bool) : meetCount pl v closed =
    (((chainSegs v closed).filter (Polyline.edgeMeets pl)).map (Polyline.edgePoint pl)).length := by
  rw [← meetCount_eq, List.length_map]
  unfold Plane.flatnonzero
  rw [fnz_length]

theorem added_count {pl : Plane ℝ} {closed : Bool} {u u' : List (V3 ℝ)} (h : AddPoint closed u u')
    (hz : ∀ x ∈ u', height pl x ≠ 0) : meetCount pl u' closed = meetCount pl u closed := by
  rw [meetCount_filter, meetCount_filter, added_points h hz]

/-! ### cutting open chains -/

/-- `q` follows from `p` by adding points -/
def CutFiner (r r' : PyM (Polyline ℝ)) : Prop :=
  (∀ e, r = .error e → r' = .error e) ∧
  ∀ p, r = .ok p → ∃ u u', p = poly u false ∧ r' = .ok (poly u' false) ∧ Finer false u u'

theorem CutFiner.of_ok {u u' : List (V3 ℝ)} (h : Finer false u u') :
    CutFiner (.ok (poly u false)) (.ok (poly u' false)) :=
  ⟨fun e he => by simp at he, fun p hp => by
    injection hp with hp
    exact ⟨u, u', hp.symm, rfl, h⟩⟩

theorem CutFiner.err (e : PyErr) : CutFiner (.error e) (.error e) :=
  ⟨fun _ he => he, fun p hp => by simp at hp⟩

theorem CutFiner.trans {r s t : PyM (Polyline ℝ)} (h : CutFiner r s) (h' : CutFiner s t) : CutFiner r t := by
  refine ⟨fun e he => h'.1 e (h.1 e he), fun p hp => ?_⟩
  obtain ⟨u, u', h1, h2, h3⟩ := h.2 p hp
  obtain ⟨x, x', k1, k2, k3⟩ := h'.2 _ h2
  have e : u' = x := by
    have := congrArg Polyline.v k1
    simpa [poly] using this
  subst e
  exact ⟨u, x', h1, k2, h3.trans k3⟩

theorem cons_last {P : Type} (x : P) (xs ys pre : List P) (a : P) (h : pre ++ [a] = xs ++ x :: ys) :
    ∃ zs, x :: ys = zs ++ [a] := by
  have hl : (x :: ys).getLast? = some a := by
    have := congrArg List.getLast? h
    rw [List.getLast?_append, List.getLast?_append] at this
    simp only [List.getLast?_singleton, Option.some_or] at this
    rw [List.getLast?_eq_some_getLast (List.cons_ne_nil x ys)] at this ⊢
    simpa using this.symm
  rw [List.getLast?_eq_some_getLast (List.cons_ne_nil x ys)] at hl
  injection hl with hl
  exact ⟨_, by rw [← hl, List.dropLast_append_getLast]⟩

theorem pairs_inner {P : Type} (pre post : List P) (a b q : P) :
    pairs (pre ++ a :: q :: b :: post) = pairs (pre ++ [a]) ++ (a, q) :: (q, b) :: pairs (b :: post) := by
  rw [pairs_mid]; rfl

theorem one_at {β : Type} (m : β → Prop) (A C : List β) (s : β)
    (h : open Classical in (A ++ s :: C).countP (fun x => decide (m x)) = 1) (hs : m s) :
    (∀ x ∈ A, ¬ m x) ∧ ∀ x ∈ C, ¬ m x := by
  classical
  rw [List.countP_append, List.countP_cons, if_pos (by simpa using hs)] at h
  have hA : A.countP (fun x => decide (m x)) = 0 := by omega
  have hC : C.countP (fun x => decide (m x)) = 0 := by omega
  rw [List.countP_eq_zero] at hA hC
  exact ⟨fun x hx => by simpa using hA x hx, fun x hx => by simpa using hC x hx⟩

theorem cut_open_at {pl : Plane ℝ} (hu : UnitNormal pl) {v xs ys : List (V3 ℝ)} {a b X : V3 ℝ}
    (hv : v = xs ++ a :: b :: ys) (hcount : meetCount pl v false = 1) (hm : Props.Meets pl (a, b))
    (ha : height pl a ≠ 0) (hX : OnPlane pl X) (hX' : OnSegment a b X) :
    (height pl a < height pl b → (poly v false).cutByPlane pl = .ok (poly (X :: b :: ys) false)) ∧
      (height pl b < height pl a → (poly v false).cutByPlane pl = .ok (poly (xs ++ [a, X]) false)) := by
  subst hv
  have hc : open Classical in (pairs (xs ++ [a]) ++ (a, b) :: pairs (b :: ys)).countP
      (fun s => decide (Props.Meets pl s)) = 1 := by
    rw [← pairs_mid]
    unfold meetCount chainSegs circuit at hcount
    simpa using hcount
  obtain ⟨h1, h2⟩ := one_at _ _ _ _ hc hm
  obtain ⟨hne, Y, hY, hY', c1, c2⟩ := open_split pl hu xs ys a b hm (by simp [Props.InPlane, ha]) h1 h2
  rw [crossing_unique hne hX hX' hY hY']
  exact ⟨c1, c2⟩

theorem added_cut_open {pl : Plane ℝ} (hu : UnitNormal pl) {u u' : List (V3 ℝ)} (h : AddPoint false u u')
    (hz : ∀ x ∈ u', height pl x ≠ 0) :
    CutFiner ((poly u false).cutByPlane pl) ((poly u' false).cutByPlane pl) := by
  have hcnt := added_count h hz
  by_cases hc : meetCount pl u false = 1
  swap
  · rw [C39_count pl u hc, C39_count pl u' (by rw [hcnt]; exact hc)]
    exact CutFiner.err _
  have hc' : meetCount pl u' false = 1 := by rw [hcnt, hc]
  have hsub := (added_mem h).subset
  cases h with
  | inner _ pre a b post q hq =>
    obtain ⟨xs, x, y, ys, he, hm, h1, h2⟩ := one_meets pl _ hc
    have ha := hz a (by simp)
    have hb := hz b (by simp)
    have hq0 := hz q (by simp)
    have hx := hz x (hsub (by rw [he]; simp))
    have hy := hz y (hsub (by rw [he]; simp))
    obtain ⟨hX, hX'⟩ := crossing_spec pl (x, y) hm (by simp [Props.InPlane, hx])
    generalize crossing pl (x, y) = X at hX hX'
    have hxy : height pl x ≠ height pl y := by
      rcases (meets_iff hx hy).mp hm with h | h
      · linarith
      · linarith
    have step := List.append_eq_append_iff.mp he
    have hpos : (∃ ys', pre ++ [a] = xs ++ x :: y :: ys' ∧ ys = ys' ++ b :: post) ∨
        (xs = pre ∧ x = a ∧ y = b ∧ ys = post) ∨ (∃ xs', b :: post = xs' ++ x :: y :: ys ∧ xs = pre ++ a :: xs') := by
      rcases step with ⟨C, h1, h2⟩ | ⟨C, h1, h2⟩
      · -- xs = pre ++ C, a :: b :: post = C ++ x :: y :: ys
        match C, h1, h2 with
        | [], h1, h2 =>
          simp only [List.nil_append, List.cons.injEq] at h2
          exact Or.inr (Or.inl ⟨by simpa using h1, h2.1.symm, h2.2.1.symm, h2.2.2.symm⟩)
        | c :: C', h1, h2 =>
          rw [List.cons_append, List.cons.injEq] at h2
          obtain ⟨rfl, h2⟩ := h2
          exact Or.inr (Or.inr ⟨C', h2, h1⟩)
      · -- pre = xs ++ C, x :: y :: ys = C ++ a :: b :: post
        match C, h1, h2 with
        | [], h1, h2 =>
          simp only [List.nil_append, List.cons.injEq] at h2
          exact Or.inr (Or.inl ⟨by simpa using h1.symm, h2.1, h2.2.1, h2.2.2⟩)
        | [c], h1, h2 =>
          simp only [List.cons_append, List.nil_append, List.cons.injEq] at h2
          obtain ⟨rfl, rfl, rfl⟩ := h2
          exact Or.inl ⟨[], by rw [h1]; simp, rfl⟩
        | c :: d :: C', h1, h2 =>
          simp only [List.cons_append, List.cons.injEq] at h2
          obtain ⟨rfl, rfl, rfl⟩ := h2
          exact Or.inl ⟨C' ++ [a], by rw [h1]; simp, by simp⟩
    rcases hpos with ⟨ys', e1, rfl⟩ | ⟨rfl, rfl, rfl, rfl⟩ | ⟨xs', e1, rfl⟩
    · have e2 : pre ++ a :: q :: b :: post = xs ++ x :: y :: (ys' ++ q :: b :: post) := by
        rw [show pre ++ a :: q :: b :: post = (pre ++ [a]) ++ q :: b :: post by simp, e1]; simp
      obtain ⟨c1, c2⟩ := cut_open_at hu he hc hm hx hX hX'
      obtain ⟨d1, d2⟩ := cut_open_at hu e2 hc' hm hx hX hX'
      rcases lt_or_gt_of_ne hxy with hlt | hlt
      · rw [c1 hlt, d1 hlt]
        apply CutFiner.of_ok
        obtain ⟨zs, hzs⟩ := cons_last y (xs ++ [x]) ys' pre a (by rw [e1]; simp)
        apply Relation.ReflTransGen.single
        have := AddPoint.inner false (X :: zs) a b post q hq
        rw [show X :: zs ++ a :: b :: post = X :: ((zs ++ [a]) ++ b :: post) by simp,
          show X :: zs ++ a :: q :: b :: post = X :: ((zs ++ [a]) ++ q :: b :: post) by simp, ← hzs] at this
        exact this
      · rw [c2 hlt, d2 hlt]
        exact CutFiner.of_ok .refl
    · rcases (meets_iff hx hy).mp hm with ⟨h1, h2⟩ | ⟨h1, h2⟩
      · rw [(cut_open_at hu rfl hc hm hx hX hX').1 (by linarith)]
        rcases lt_or_gt_of_ne hq0 with h3 | h3
        · rw [(cut_open_at (v := xs ++ x :: q :: y :: ys) (xs := xs ++ [x]) (ys := ys) hu (by simp) hc' ((meets_iff hq0 hy).mpr (Or.inl ⟨h3, h2⟩)) hq0 hX
            (before hq hX' hX (Or.inl ⟨h1, h2, h3⟩)).1).1 (by linarith)]
          exact CutFiner.of_ok .refl
        · have hbe := beyond hq hX' hX (Or.inl ⟨h1, h2, h3⟩)
          rw [(cut_open_at hu rfl hc' ((meets_iff hx hq0).mpr (Or.inl ⟨h1, h3⟩)) hx hX hbe.1).1 (by linarith)]
          exact CutFiner.of_ok (.single (AddPoint.inner false [] X y ys q hbe.2))
      · rw [(cut_open_at hu rfl hc hm hx hX hX').2 (by linarith)]
        rcases lt_or_gt_of_ne hq0 with h3 | h3
        · rw [(cut_open_at hu rfl hc' ((meets_iff hx hq0).mpr (Or.inr ⟨h1, h3⟩)) hx hX
            (beyond hq hX' hX (Or.inr ⟨h1, h2, h3⟩)).1).2 (by linarith)]
          exact CutFiner.of_ok .refl
        · have hbe := before hq hX' hX (Or.inr ⟨h1, h2, h3⟩)
          rw [(cut_open_at (v := xs ++ x :: q :: y :: ys) (xs := xs ++ [x]) (ys := ys) hu (by simp) hc' ((meets_iff hq0 hy).mpr (Or.inr ⟨h3, h2⟩)) hq0 hX hbe.1).2
            (by linarith)]
          have := AddPoint.inner false xs x X [] q hbe.2
          rw [show xs ++ x :: q :: X :: [] = xs ++ [x] ++ [q, X] by simp] at this
          exact CutFiner.of_ok (.single this)
    · have e2 : pre ++ a :: q :: b :: post = (pre ++ a :: q :: xs') ++ x :: y :: ys := by
        rw [e1]; simp
      obtain ⟨c1, c2⟩ := cut_open_at hu he hc hm hx hX hX'
      obtain ⟨d1, d2⟩ := cut_open_at hu e2 hc' hm hx hX hX'
      rcases lt_or_gt_of_ne hxy with hlt | hlt
      · rw [c1 hlt, d1 hlt]
        exact CutFiner.of_ok .refl
      · rw [c2 hlt, d2 hlt]
        apply CutFiner.of_ok
        apply Relation.ReflTransGen.single
        have hw : ∃ post', b :: post' = xs' ++ [x, X] := by
          cases xs' with
          | nil =>
            simp only [List.nil_append, List.cons.injEq] at e1
            exact ⟨[X], by rw [e1.1]; rfl⟩
          | cons c xs' =>
            simp only [List.cons_append, List.cons.injEq] at e1
            exact ⟨xs' ++ [x, X], by rw [e1.1]; rfl⟩
        obtain ⟨post', hp⟩ := hw
        have := AddPoint.inner false pre a b post' q hq
        rw [hp] at this
        simpa using this

/-! ### cutting closed chains -/

theorem cut_closed_at {pl : Plane ℝ} {v F B : List (V3 ℝ)} {f0 f1 b0 b1 X Y : V3 ℝ} (hr : v ~r (F ++ B))
    (hcount : meetCount pl v true = 2) (hF : ∀ x ∈ F, 0 < height pl x) (hB : ∀ x ∈ B, height pl x < 0)
    (hf0 : F.head? = some f0) (hf1 : F.getLast? = some f1) (hb0 : B.head? = some b0) (hb1 : B.getLast? = some b1)
    (hX : OnPlane pl X) (hX' : OnSegment f0 b1 X) (hY : OnPlane pl Y) (hY' : OnSegment f1 b0 Y) :
    (poly v true).cutByPlane pl = .ok (poly (X :: F ++ [Y]) false) := by
  obtain ⟨r, F', B', f0', f1', b0', b1', S, E, h1, h2, h3, h4, h5, h6, h7, h8, h9, h10⟩ := C40_cut pl v hcount
    ⟨b0, hr.mem_iff.mpr (by simp [List.mem_of_head? hb0]), hB _ (List.mem_of_head? hb0)⟩
  have hR : (F' ++ B') ~r (F ++ B) := by
    rw [← h1]; exact (List.IsRotated.symm ⟨r, rfl⟩).trans hr
  obtain ⟨rfl, rfl⟩ := rotate_unique (P := fun q => 0 ≤ height pl q) h2 (fun x hx => not_le.mpr (h3 x hx))
    (fun x hx => (hF x hx).le) (fun x hx => not_le.mpr (hB x hx)) (by rintro rfl; simp at hf0) (by rintro rfl; simp at hb0) hR
  rw [h4, Option.some.injEq] at hf0
  rw [h5, Option.some.injEq] at hf1
  rw [h6, Option.some.injEq] at hb0
  rw [h7, Option.some.injEq] at hb1
  subst hf0 hf1 hb0 hb1
  have eS := added_unique (h3 _ (List.mem_of_getLast? h7)) h8
    (S' := [X]) (Or.inr ⟨hF _ (List.mem_of_head? h4), X, rfl, hX, hX'⟩)
  have eE := added_unique (h3 _ (List.mem_of_head? h6)) h9
    (S' := [Y]) (Or.inr ⟨hF _ (List.mem_of_getLast? h5), Y, rfl, hY, hY'⟩)
  rw [h10, eS, eE]
  rfl

theorem added_rotated {u u' : List (V3 ℝ)} (h : AddPoint true u u') :
    ∃ z a b q, u ~r z ∧ u' ~r (z ++ [q]) ∧ z.head? = some b ∧ z.getLast? = some a ∧ OnSegment a b q := by
  cases h with
  | inner _ pre a b post q hq =>
    refine ⟨b :: post ++ (pre ++ [a]), a, b, q, ?_, ?_, by simp, by simp [List.getLast?_append, List.getLast?_cons], hq⟩
    · have := List.isRotated_append (l := pre ++ [a]) (l' := b :: post)
      simpa using this
    · have := List.isRotated_append (l := pre ++ [a, q]) (l' := b :: post)
      simpa using this
  | closing _ a b q hb ha hq => exact ⟨u, a, b, q, .refl _, .refl _, hb, ha, hq⟩

/-- a circle of two blocks, read from any start -/
theorem start_cases {P : Type} {F B z : List P} (h : (F ++ B) ~r z) :
    z = F ++ B ∨ z = B ++ F ∨ (∃ F1 F2, F1 ≠ [] ∧ F2 ≠ [] ∧ F = F1 ++ F2 ∧ z = F2 ++ B ++ F1) ∨
      ∃ B1 B2, B1 ≠ [] ∧ B2 ≠ [] ∧ B = B1 ++ B2 ∧ z = B2 ++ F ++ B1 := by
  obtain ⟨n, hn, rfl⟩ := List.isRotated_iff_mod.mp h
  rw [List.rotate_eq_drop_append_take hn]
  rcases Nat.le_total n F.length with hl | hl
  · rw [List.drop_append_of_le_length hl, List.take_append_of_le_length hl]
    by_cases h1 : F.take n = []
    · left
      have := List.take_append_drop n F
      rw [h1, List.nil_append] at this
      rw [h1, this]; simp
    · by_cases h2 : F.drop n = []
      · right; left
        have := List.take_append_drop n F
        rw [h2, List.append_nil] at this
        rw [h2, this]; simp
      · exact Or.inr (Or.inr (Or.inl ⟨_, _, h1, h2, (List.take_append_drop n F).symm, rfl⟩))
  · rw [List.drop_append, List.take_append, List.drop_eq_nil_of_le hl, List.take_of_length_le hl, List.nil_append]
    by_cases h1 : B.take (n - F.length) = []
    · right; left
      have := List.take_append_drop (n - F.length) B
      rw [h1, List.nil_append] at this
      rw [h1, this]; simp
    · by_cases h2 : B.drop (n - F.length) = []
      · left
        have := List.take_append_drop (n - F.length) B
        rw [h2, List.append_nil] at this
        rw [h2, this]; simp
      · exact Or.inr (Or.inr (Or.inr ⟨_, _, h1, h2, (List.take_append_drop _ B).symm, by simp⟩))

theorem split_last {P : Type} {l : List P} {a : P} (h : l.getLast? = some a) : ∃ r, l = r ++ [a] := by
  have hne : l ≠ [] := by rintro rfl; simp at h
  rw [List.getLast?_eq_some_getLast hne] at h
  injection h with h
  exact ⟨l.dropLast, by rw [← h, List.dropLast_append_getLast hne]⟩

theorem split_head {P : Type} {l : List P} {a : P} (h : l.head? = some a) : ∃ r, l = a :: r := by
  cases l with
  | nil => simp at h
  | cons x r => simp at h; exact ⟨r, by rw [h]⟩

theorem added_cut_closed {pl : Plane ℝ} {u u' : List (V3 ℝ)} (h : AddPoint true u u')
    (hz : ∀ x ∈ u', height pl x ≠ 0) :
    CutFiner ((poly u true).cutByPlane pl) ((poly u' true).cutByPlane pl) := by
  have hcnt := added_count h hz
  by_cases hc : meetCount pl u true = 2
  swap
  · rw [C40_count pl u hc, C40_count pl u' (by rw [hcnt]; exact hc)]
    exact CutFiner.err _
  have hc' : meetCount pl u' true = 2 := by rw [hcnt, hc]
  have hsub := (added_mem h).subset
  obtain ⟨z, a, b, q, r1, r2, hzb, hza, hq⟩ := added_rotated h
  have hzu : ∀ x, x ∈ u ↔ x ∈ z := fun x => r1.mem_iff
  have hzu' : ∀ x, x ∈ u' ↔ x ∈ z ++ [q] := fun x => r2.mem_iff
  by_cases hback : ∃ x ∈ u, height pl x < 0
  swap
  · push Not at hback
    rw [C40_touching pl u hc hback, C40_touching pl u' hc' (fun x hx => by
      rcases List.mem_append.mp ((hzu' x).mp hx) with hx | hx
      · exact hback x ((hzu x).mpr hx)
      · rw [List.mem_singleton.mp hx]
        exact seg_nonneg hq (hback a ((hzu a).mpr (List.mem_of_getLast? hza))) (hback b ((hzu b).mpr (List.mem_of_head? hzb))))]
    exact CutFiner.err _
  have hq0 := hz q ((hzu' q).mpr (by simp))
  obtain ⟨r, F, B, f0, f1, b0, b1, S, E, h1, h2, h3, h4, h5, h6, h7, h8, h9, h10⟩ := C40_cut pl u hc hback
  have hrF : u ~r (F ++ B) := ⟨r, h1⟩
  have hF : ∀ x ∈ F, 0 < height pl x := fun x hx =>
    (h2 x hx).lt_of_ne (hz x (hsub (hrF.mem_iff.mpr (by simp [hx])))).symm
  have hf0 := hF _ (List.mem_of_head? h4)
  have hf1 := hF _ (List.mem_of_getLast? h5)
  have hb0 := h3 _ (List.mem_of_head? h6)
  have hb1 := h3 _ (List.mem_of_getLast? h7)
  obtain ⟨-, X, rfl, hX, hX'⟩ : 0 < height pl f0 ∧ ∃ X, S = [X] ∧ OnPlane pl X ∧ OnSegment f0 b1 X := by
    rcases h8 with ⟨h, -⟩ | h
    · exact absurd h hf0.ne'
    · exact h
  obtain ⟨-, Y, rfl, hY, hY'⟩ : 0 < height pl f1 ∧ ∃ Y, E = [Y] ∧ OnPlane pl Y ∧ OnSegment f1 b0 Y := by
    rcases h9 with ⟨h, -⟩ | h
    · exact absurd h hf1.ne'
    · exact h
  rw [h10]
  rcases start_cases (hrF.symm.trans r1) with rfl | rfl | ⟨F1, F2, n1, n2, rfl, rfl⟩ | ⟨B1, B2, n1, n2, rfl, rfl⟩
  · -- the new point is between the last vertex behind and the first in front
    obtain rfl : a = b1 := by
      rw [List.getLast?_append, h7] at hza; simpa using hza.symm
    obtain rfl : b = f0 := by
      rw [List.head?_append, h4] at hzb; simpa using hzb.symm
    have hXs := onSegment_swap _ _ _ hX'
    rcases lt_or_gt_of_ne hq0 with h0 | h0
    · have hbe := before hq hXs hX (Or.inl ⟨hb1, hf0, h0⟩)
      rw [cut_closed_at (F := F) (B := B ++ [q]) (by simpa using r2) hc' hF
        (fun x hx => by
          rcases List.mem_append.mp hx with hx | hx
          · exact h3 x hx
          · rw [List.mem_singleton.mp hx]; exact h0)
        h4 h5 (by rw [List.head?_append, h6]; rfl) (by simp) hX (onSegment_swap _ _ _ hbe.1) hY hY']
      exact CutFiner.of_ok .refl
    · have hbe := beyond hq hXs hX (Or.inl ⟨hb1, hf0, h0⟩)
      rw [cut_closed_at (F := q :: F) (B := B) (r2.trans (by
          have := List.isRotated_append (l := F ++ B) (l' := [q])
          simpa using this)) hc'
        (fun x hx => by
          rcases List.mem_cons.mp hx with rfl | hx
          · exact h0
          · exact hF x hx) h3 rfl (by rw [List.getLast?_cons, h5]; rfl) h6 h7 hX (onSegment_swap _ _ _ hbe.1) hY hY']
      obtain ⟨t, rfl⟩ := split_head h4
      exact CutFiner.of_ok (.single (AddPoint.inner false [] X b (t ++ [Y]) q hbe.2))
  · -- between the last vertex in front and the first behind
    obtain rfl : a = f1 := by
      rw [List.getLast?_append, h5] at hza; simpa using hza.symm
    obtain rfl : b = b0 := by
      rw [List.head?_append, h6] at hzb; simpa using hzb.symm
    rcases lt_or_gt_of_ne hq0 with h0 | h0
    · have hbe := beyond hq hY' hY (Or.inr ⟨hf1, hb0, h0⟩)
      rw [cut_closed_at (F := F) (B := q :: B) (r2.trans (by
          have := List.isRotated_append (l := B) (l' := F ++ [q])
          simpa using this)) hc' hF
        (fun x hx => by
          rcases List.mem_cons.mp hx with rfl | hx
          · exact h0
          · exact h3 x hx) h4 h5 rfl (by rw [List.getLast?_cons, h7]; rfl) hX hX' hY hbe.1]
      exact CutFiner.of_ok .refl
    · have hbe := before hq hY' hY (Or.inr ⟨hf1, hb0, h0⟩)
      rw [cut_closed_at (F := F ++ [q]) (B := B) (r2.trans (by
          have := List.isRotated_append (l := B) (l' := F ++ [q])
          simpa using this)) hc'
        (fun x hx => by
          rcases List.mem_append.mp hx with hx | hx
          · exact hF x hx
          · rw [List.mem_singleton.mp hx]; exact h0)
        h3 (by rw [List.head?_append, h4]; rfl) (by simp) h6 h7 hX hX' hY hbe.1]
      obtain ⟨t, rfl⟩ := split_last h5
      have := AddPoint.inner false (X :: t) a Y [] q hbe.2
      exact CutFiner.of_ok (.single (by simpa using this))
  · -- between two vertices in front
    obtain ⟨s, rfl⟩ : ∃ s, F1 = s ++ [a] := split_last (by
      rw [List.getLast?_append, List.getLast?_eq_some_getLast n1] at hza
      rw [List.getLast?_eq_some_getLast n1]; simpa using hza)
    obtain ⟨t, rfl⟩ : ∃ t, F2 = b :: t := split_head (by
      cases F2 with
      | nil => exact absurd rfl n2
      | cons c t => simpa using hzb)
    have h0 : 0 < height pl q := seg_pos hq (hF a (by simp)) (hF b (by simp))
    rw [cut_closed_at (F := s ++ a :: q :: b :: t) (B := B) (r2.trans (by
        have := List.isRotated_append (l := b :: t ++ B) (l' := s ++ [a, q])
        simpa using this)) hc'
      (fun x hx => by
        have : x = q ∨ x ∈ s ++ [a] ++ b :: t := by simp at hx ⊢; tauto
        rcases this with rfl | hx
        · exact h0
        · exact hF x hx)
      h3 (by rw [← h4]; cases s <;> simp) (by rw [← h5]; simp [List.getLast?_append]) h6 h7 hX hX' hY hY']
    have := AddPoint.inner false (X :: s) a b (t ++ [Y]) q hq
    exact CutFiner.of_ok (.single (by simpa using this))
  · -- between two vertices behind
    obtain ⟨s, rfl⟩ : ∃ s, B1 = s ++ [a] := split_last (by
      rw [List.getLast?_append, List.getLast?_eq_some_getLast n1] at hza
      rw [List.getLast?_eq_some_getLast n1]; simpa using hza)
    obtain ⟨t, rfl⟩ : ∃ t, B2 = b :: t := split_head (by
      cases B2 with
      | nil => exact absurd rfl n2
      | cons c t => simpa using hzb)
    have h0 : height pl q < 0 := seg_neg hq (h3 a (by simp)) (h3 b (by simp))
    rw [cut_closed_at (F := F) (B := s ++ a :: q :: b :: t) (r2.trans (by
        have := List.isRotated_append (l := b :: t) (l' := F ++ (s ++ [a, q]))
        simpa using this)) hc' hF
      (fun x hx => by
        have : x = q ∨ x ∈ s ++ [a] ++ b :: t := by simp at hx ⊢; tauto
        rcases this with rfl | hx
        · exact h0
        · exact h3 x hx)
      h4 h5 (by rw [← h6]; cases s <;> simp) (by rw [← h7]; simp [List.getLast?_append]) hX hX' hY hY']
    exact CutFiner.of_ok .refl

/-- every result of a cut is an open polyline -/
theorem cut_result {pl : Plane ℝ} (hu : UnitNormal pl) {v : List (V3 ℝ)} {closed : Bool} (hz : ∀ x ∈ v, height pl x ≠ 0)
    {p : Polyline ℝ} (h : (poly v closed).cutByPlane pl = .ok p) : ∃ u, p = poly u false := by
  cases closed with
  | false =>
    by_cases hc : meetCount pl v false = 1
    · obtain ⟨xs, a, b, ys, rfl, hm, h1, h2⟩ := one_meets pl v hc
      obtain ⟨hne, X, _, _, c1, c2⟩ := open_split pl hu xs ys a b hm (by simp [Props.InPlane, hz a (by simp)]) h1 h2
      rcases lt_or_gt_of_ne hne with hl | hl
      · rw [c1 hl] at h; injection h with h; exact ⟨_, h.symm⟩
      · rw [c2 hl] at h; injection h with h; exact ⟨_, h.symm⟩
    · rw [C39_count pl v hc] at h; simp at h
  | true =>
    by_cases hc : meetCount pl v true = 2
    · by_cases hb : ∃ q ∈ v, height pl q < 0
      · obtain ⟨_, F, _, _, _, _, _, S, E, _, _, _, _, _, _, _, _, _, h10⟩ := C40_cut pl v hc hb
        rw [h10] at h; injection h with h; exact ⟨_, h.symm⟩
      · push Not at hb
        rw [C40_touching pl v hc hb] at h; simp at h
    · rw [C40_count pl v hc] at h; simp at h

/-! ### the first point where a function is largest -/

theorem firstMax_iff {P : Type} {f : P → ℝ} {xs : List P} {p : P} :
    (∃ i, FirstMax f xs i p) ↔ ∃ A B, xs = A ++ p :: B ∧ (∀ x ∈ A, f x < f p) ∧ ∀ x ∈ B, f x ≤ f p := by
  constructor
  · rintro ⟨i, h1, h2, h3⟩
    obtain ⟨hi, rfl⟩ := List.getElem?_eq_some_iff.mp h1
    refine ⟨xs.take i, xs.drop (i + 1), ?_, ?_, fun x hx => h2 x (List.mem_of_mem_drop hx)⟩
    · rw [← List.drop_eq_getElem_cons hi, List.take_append_drop]
    · intro x hx
      obtain ⟨j, hj, rfl⟩ := List.mem_iff_getElem.mp hx
      rw [List.length_take] at hj
      exact h3 j _ (by omega) (by simp)
  · rintro ⟨A, B, rfl, hA, hB⟩
    refine ⟨A.length, by simp, ?_, ?_⟩
    · intro y hy
      rcases List.mem_append.mp hy with hy | hy
      · exact (hA y hy).le
      · rcases List.mem_cons.mp hy with rfl | hy
        · exact le_rfl
        · exact hB y hy
    · intro j y hj hy
      rw [List.getElem?_append_left hj] at hy
      exact hA y (List.mem_of_getElem? hy)

theorem firstMax_unique {P : Type} {f : P → ℝ} {xs : List P} {i j : ℕ} {p q : P} (h : FirstMax f xs i p)
    (h' : FirstMax f xs j q) : i = j ∧ p = q := by
  have hi : i = j := by
    rcases lt_trichotomy i j with hl | hl | hl
    · exact absurd (h'.2.2 i p hl h.1) (not_lt.mpr (h.2.1 q (List.mem_of_getElem? h'.1)))
    · exact hl
    · exact absurd (h.2.2 j q hl h'.1) (not_lt.mpr (h'.2.1 p (List.mem_of_getElem? h.1)))
  subst hi
  have := h.1.symm.trans h'.1
  exact ⟨rfl, by simpa using this⟩

/-- a function which on every segment is at most the interpolation of its values at the ends -/
def Convex (f : V3 ℝ → ℝ) : Prop :=
  ∀ a b t, 0 ≤ t → t ≤ 1 → f (along a t (vec3 a b)) ≤ (1 - t) * f a + t * f b

theorem convex_inner (axis : V3 ℝ) : Convex fun q => inner3 q axis := by
  intro a b t _ _
  apply le_of_eq
  simp only [inner3, along, vec3]; ring

theorem convex_dist (o : V3 ℝ) : Convex fun q => dist3 o q := by
  intro a b t t0 t1
  have e : vec3 o (along a t (vec3 a b)) = scale3 (1 - t) (vec3 o a) + scale3 t (vec3 o b) := by
    ext <;> simp [vec3, along, scale3] <;> ring
  show len3 _ ≤ (1 - t) * len3 _ + t * len3 _
  rw [e]
  refine (len3_add_le _ _).trans ?_
  rw [len3_scale, len3_scale, abs_of_nonneg t0, abs_of_nonneg (by linarith)]

theorem convex_le {f : V3 ℝ → ℝ} (hf : Convex f) {a b q : V3 ℝ} (hq : OnSegment a b q) {M : ℝ} (ha : f a ≤ M) (hb : f b ≤ M) :
    f q ≤ M := by
  obtain ⟨t, t0, t1, rfl⟩ := hq
  have := hf a b t t0 t1
  nlinarith

/-- strictly below at the start: strictly below everywhere but perhaps at the end -/
theorem convex_lt {f : V3 ℝ → ℝ} (hf : Convex f) {a b q : V3 ℝ} (hq : OnSegment a b q) {M : ℝ} (ha : f a < M) (hb : f b ≤ M) :
    q = b ∨ f q < M := by
  obtain ⟨t, t0, t1, rfl⟩ := hq
  rcases t1.lt_or_eq with h | rfl
  · right
    have := hf a b t t0 t1
    nlinarith [mul_pos (sub_pos.mpr h) (sub_pos.mpr ha), mul_nonneg t0 (sub_nonneg.mpr hb)]
  · left
    ext <;> simp [along, vec3]

theorem added_first {f : V3 ℝ → ℝ} (hf : Convex f) {c : Bool} {u u' : List (V3 ℝ)} (h : AddPoint c u u') {p : V3 ℝ}
    (hm : ∃ i, FirstMax f u i p) : ∃ i, FirstMax f u' i p := by
  rw [firstMax_iff] at hm ⊢
  obtain ⟨A, B, he, hA, hB⟩ := hm
  have hall : ∀ x ∈ u, f x ≤ f p := by
    intro x hx
    rw [he] at hx
    rcases List.mem_append.mp hx with hx | hx
    · exact (hA x hx).le
    · rcases List.mem_cons.mp hx with rfl | hx
      · exact le_rfl
      · exact hB x hx
  cases h with
  | inner _ pre a b post q hq =>
    have ha := hall a (by simp)
    have hb := hall b (by simp)
    have hqle := convex_le hf hq ha hb
    rcases List.append_eq_append_iff.mp he with ⟨C, h1, h2⟩ | ⟨C, h1, h2⟩
    · match C, h1, h2 with
      | [], h1, h2 =>
        simp only [List.nil_append, List.cons.injEq] at h2
        obtain ⟨rfl, rfl⟩ := h2
        refine ⟨pre, q :: b :: post, rfl, by simpa [h1] using hA, ?_⟩
        intro x hx
        rcases List.mem_cons.mp hx with rfl | hx
        · exact hqle
        · exact hB x hx
      | [c], h1, h2 =>
        simp only [List.cons_append, List.nil_append, List.cons.injEq] at h2
        obtain ⟨rfl, rfl, rfl⟩ := h2
        have hlt : f a < f b := hA a (by rw [h1]; simp)
        rcases convex_lt hf hq hlt le_rfl with rfl | hlq
        · refine ⟨pre ++ [a], q :: post, by simp, by simpa [h1] using hA, ?_⟩
          intro x hx
          rcases List.mem_cons.mp hx with rfl | hx
          · exact le_rfl
          · exact hB x hx
        · refine ⟨pre ++ [a, q], post, by simp, ?_, hB⟩
          intro x hx
          have : x = q ∨ x ∈ A := by rw [h1]; simp at hx ⊢; tauto
          rcases this with rfl | hx
          · exact hlq
          · exact hA x hx
      | c :: d :: C', h1, h2 =>
        simp only [List.cons_append, List.cons.injEq] at h2
        obtain ⟨rfl, rfl, rfl⟩ := h2
        have hlt : f a < f p := hA a (by rw [h1]; simp)
        have hlt' : f b < f p := hA b (by rw [h1]; simp)
        have hlq : f q < f p := by
          rcases convex_lt hf hq hlt hlt'.le with rfl | h
          · exact hlt'
          · exact h
        refine ⟨pre ++ a :: q :: b :: C', B, by simp, ?_, hB⟩
        intro x hx
        have : x = q ∨ x ∈ A := by rw [h1]; simp at hx ⊢; tauto
        rcases this with rfl | hx
        · exact hlq
        · exact hA x hx
    · match C, h1, h2 with
      | [], h1, h2 =>
        simp only [List.nil_append, List.cons.injEq] at h2
        obtain ⟨rfl, rfl⟩ := h2
        refine ⟨pre, q :: b :: post, rfl, by simpa [h1] using hA, ?_⟩
        intro x hx
        rcases List.mem_cons.mp hx with rfl | hx
        · exact hqle
        · exact hB x hx
      | c :: C', h1, h2 =>
        simp only [List.cons_append, List.cons.injEq] at h2
        obtain ⟨rfl, rfl⟩ := h2
        refine ⟨A, C' ++ a :: q :: b :: post, by rw [h1]; simp, hA, ?_⟩
        intro x hx
        have : x = q ∨ x ∈ C' ++ a :: b :: post := by simp at hx ⊢; tauto
        rcases this with rfl | hx
        · exact hqle
        · exact hB x hx
  | closing _ a b q hb ha hq =>
    refine ⟨A, B ++ [q], by rw [he]; simp, hA, ?_⟩
    intro x hx
    rcases List.mem_append.mp hx with hx | hx
    · exact hB x hx
    · rw [List.mem_singleton.mp hx]
      exact convex_le hf hq (hall a (List.mem_of_getLast? ha)) (hall b (List.mem_of_head? hb))

/-! ### `partition_by_length` adds points -/

theorem cut_next (l : ℝ) (a b : V3 ℝ) (j : ℕ) (hj : j + 1 < parts l (a, b)) :
    OnSegment (cutPoint l (a, b) j) b (cutPoint l (a, b) (j + 1)) := by
  have hp : (0 : ℝ) < parts l (a, b) := by exact_mod_cast parts_pos l (a, b)
  refine (seg_order a b _ _ (by positivity) ?_ ?_).2
  · gcongr; simp
  · rw [div_le_one hp]; exact_mod_cast hj.le

theorem fill_inner (c : Bool) (l : ℝ) (pre post : List (V3 ℝ)) (a b : V3 ℝ) : ∀ n, n + 1 ≤ parts l (a, b) →
    Finer c (pre ++ a :: b :: post) (pre ++ (List.range (n + 1)).map (cutPoint l (a, b)) ++ b :: post)
  | 0, _ => by
    have : (List.range (0 + 1)).map (cutPoint l (a, b)) = [a] := by simp [cutPoint_zero]
    rw [this]
    simp only [List.append_assoc, List.singleton_append]
    exact .refl
  | n + 1, h => by
    refine (fill_inner c l pre post a b n (by omega)).tail ?_
    have := AddPoint.inner c (pre ++ (List.range n).map (cutPoint l (a, b))) _ b post _ (cut_next l a b n (by omega))
    rw [List.range_succ (n := n + 1), List.range_succ (n := n), List.map_append, List.map_append]
    simpa using this

theorem fill_closing (l : ℝ) (pre : List (V3 ℝ)) (a b : V3 ℝ) (hb : (pre ++ [a]).head? = some b) :
    ∀ n, n + 1 ≤ parts l (a, b) →
    Finer true (pre ++ [a]) (pre ++ (List.range (n + 1)).map (cutPoint l (a, b)))
  | 0, _ => by
    have : (List.range (0 + 1)).map (cutPoint l (a, b)) = [a] := by simp [cutPoint_zero]
    rw [this]
    exact .refl
  | n + 1, h => by
    refine (fill_closing l pre a b hb n (by omega)).tail ?_
    have := AddPoint.closing (pre ++ (List.range (n + 1)).map (cutPoint l (a, b))) (cutPoint l (a, b) n) b
      (cutPoint l (a, b) (n + 1)) ?_ (by rw [List.range_succ]; simp) (cut_next l a b n (by omega))
    · rw [List.range_succ (n := n + 1), List.map_append]
      simpa using this
    · cases pre with
      | nil =>
        rw [List.range_succ_eq_map]
        simpa [cutPoint_zero] using hb
      | cons x r => simpa using hb

theorem fill_open (c : Bool) (l : ℝ) : ∀ (v pre : List (V3 ℝ)),
    Finer c (pre ++ v) (pre ++ ((pairs v).flatMap (subdivide l) ++ v.getLast?.toList))
  | [], pre => by simp only [pairs, List.flatMap_nil, List.getLast?_nil, Option.toList_none, List.append_nil]; exact .refl
  | [a], pre => by
    simp only [pairs, List.flatMap_nil, List.getLast?_singleton, Option.toList_some, List.nil_append]; exact .refl
  | a :: b :: r, pre => by
    have hp := parts_pos l (a, b)
    obtain ⟨n, hn⟩ : ∃ n, parts l (a, b) = n + 1 := ⟨_, (Nat.sub_add_cancel hp).symm⟩
    have h1 := fill_inner c l pre r a b n (by omega)
    rw [← hn] at h1
    have h2 := fill_open c l (b :: r) (pre ++ subdivide l (a, b))
    have e : pre ++ ((pairs (a :: b :: r)).flatMap (subdivide l) ++ (a :: b :: r).getLast?.toList) =
        pre ++ subdivide l (a, b) ++ ((pairs (b :: r)).flatMap (subdivide l) ++ (b :: r).getLast?.toList) := by
      rw [pairs, List.flatMap_cons, List.getLast?_cons_cons]; simp
    rw [e]
    exact h1.trans h2

theorem finer_refined (l : ℝ) (v : List (V3 ℝ)) (closed : Bool) (hv : v ≠ []) : Finer closed v (refined l v closed) := by
  cases closed with
  | false =>
    have := fill_open false l v []
    simpa [refined, chainSegs, circuit] using this
  | true =>
    have h1 := fill_open true l v []
    obtain ⟨a, ha⟩ : ∃ a, v.getLast? = some a := ⟨_, List.getLast?_eq_some_getLast hv⟩
    obtain ⟨b, hb⟩ : ∃ b, v.head? = some b := ⟨_, List.head?_eq_some_head hv⟩
    simp only [List.nil_append, ha, Option.toList_some] at h1
    have hh : ((pairs v).flatMap (subdivide l) ++ [a]).head? = some b := by
      have : ∀ {x y : List (V3 ℝ)}, Finer true x y → y.head? = x.head? := by
        intro x y h
        induction h with
        | refl => rfl
        | tail _ h ih => rw [added_head h, ih]
      rw [this h1, hb]
    obtain ⟨n, hn⟩ : ∃ n, parts l (a, b) = n + 1 := ⟨_, (Nat.sub_add_cancel (parts_pos l (a, b))).symm⟩
    have h2 := fill_closing l _ a b hh n (by omega)
    rw [← hn] at h2
    have e : refined l v true = (pairs v).flatMap (subdivide l) ++ (List.range (parts l (a, b))).map (cutPoint l (a, b)) := by
      unfold refined
      rw [chainSegs_closed_eq v b a hb ha, List.flatMap_append]
      simp [subdivide]
    rw [e]
    exact h1.trans h2

end Blmath.Proofs.RP
