import Verif.Props.Sides

/-!
Property C130: cutting a polyline more than once.
-/

namespace Blmath.Props
open Blmath Blmath.Geometry Blmath.Spec Blmath.Proofs Blmath.Proofs.SD

/-- the plane keeps the end of the polyline: its last vertex is in front -/
def KeepsEnd (pl : Plane ℝ) (v : List (V3 ℝ)) : Prop := ∃ q, v.getLast? = some q ∧ 0 < height pl q

namespace RC

theorem pairs_get {P : Type} : ∀ (v : List P) (i : ℕ) (a b : P), (pairs v)[i]? = some (a, b) ↔ v[i]? = some a ∧ v[i + 1]? = some b
  | [], i, a, b => by simp [pairs]
  | [x], i, a, b => by simp [pairs]
  | x :: y :: r, 0, a, b => by simp [pairs]
  | x :: y :: r, i + 1, a, b => by
    have := pairs_get (y :: r) i a b
    simpa [pairs] using this

theorem height_along (pl : Plane ℝ) (a b : V3 ℝ) (t : ℝ) :
    height pl (along a t (vec3 a b)) = height pl a + t * (height pl b - height pl a) := by
  simp only [height, inner3, vec3, along]; ring

/-- two points of a segment on a plane that does not contain the segment are the same -/
theorem segment_unique {pl : Plane ℝ} {a b X Y : V3 ℝ} (hin : ¬ InPlane pl (a, b)) (hX : OnPlane pl X) (hX' : OnSegment a b X)
    (hY : OnPlane pl Y) (hY' : OnSegment a b Y) : X = Y := by
  obtain ⟨s, -, -, rfl⟩ := hX'
  obtain ⟨t, -, -, rfl⟩ := hY'
  rw [onPlane_iff, height_along] at hX hY
  by_cases h : height pl b = height pl a
  · exfalso
    apply hin
    rw [h] at hX
    simp only [sub_self, mul_zero, add_zero] at hX
    exact ⟨hX, by rw [← hX]; exact h⟩
  · have : (s - t) * (height pl b - height pl a) = 0 := by linarith
    rcases mul_eq_zero.mp this with h' | h'
    · rw [sub_eq_zero.mp h']
    · exact absurd (sub_eq_zero.mp h') h

/-- only the edge from vertex `i` to the next may meet the plane -/
def Only (pl : Plane ℝ) (v : List (V3 ℝ)) (i : ℕ) : Prop :=
  ∀ j a b, v[j]? = some a → v[j + 1]? = some b → Meets pl (a, b) → j = i

/-- an open polyline that is cut at one edge -/
theorem cut_at {pl : Plane ℝ} (hu : UnitNormal pl) {v : List (V3 ℝ)} {i : ℕ} {a b X : V3 ℝ} (ha : v[i]? = some a)
    (hb : v[i + 1]? = some b) (hm : Meets pl (a, b)) (hin : ¬ InPlane pl (a, b)) (ho : Only pl v i) (hX : OnPlane pl X)
    (hX' : OnSegment a b X) :
    (height pl a < height pl b → (poly v false).cutByPlane pl = .ok (poly (X :: v.drop (i + 1)) false)) ∧
    (height pl b < height pl a → (poly v false).cutByPlane pl = .ok (poly (v.take (i + 1) ++ [X]) false)) := by
  have hseg : chainSegs v false = pairs v := by simp [chainSegs, circuit]
  obtain ⟨Y, w, h1, h2, h3, -, h4⟩ := C39_cut pl hu v i (a, b) (by rw [hseg, pairs_get]; exact ⟨ha, hb⟩) hm hin (by
    rintro j ⟨c, d⟩ hj hj'
    rw [hseg, pairs_get] at hj
    exact ho j c d hj.1 hj.2 hj')
  obtain rfl := segment_unique hin hX hX' h2 h3
  refine ⟨fun hlt => ?_, fun hlt => ?_⟩
  · rcases h4 with ⟨k, rfl, -⟩ | ⟨k, -, -⟩
    · exact h1
    · simp only at k; linarith
  · rcases h4 with ⟨k, -, -⟩ | ⟨k, rfl, -⟩
    · simp only at k; linarith
    · exact h1

theorem cut_none {pl : Plane ℝ} {v : List (V3 ℝ)} (h : ∀ j a b, v[j]? = some a → v[j + 1]? = some b → ¬ Meets pl (a, b)) :
    (poly v false).cutByPlane pl = .error .ValueError := by
  classical
  apply C39_count
  have : meetCount pl v false = 0 := by
    unfold meetCount
    rw [List.countP_eq_zero, show chainSegs v false = pairs v by simp [chainSegs, circuit]]
    rintro ⟨a, b⟩ hs
    obtain ⟨j, hj⟩ := List.mem_iff_getElem?.mp hs
    have := (pairs_get v j a b).mp hj
    simpa using h j a b this.1 this.2
  omega

/-- the one edge of a polyline meeting a plane that none of its vertices is on -/
theorem the_edge {pl : Plane ℝ} {v : List (V3 ℝ)} (hc : meetCount pl v false = 1) (hoff : ∀ q ∈ v, ¬ OnPlane pl q) :
    ∃ i a b X t, v[i]? = some a ∧ v[i + 1]? = some b ∧ height pl a * height pl b < 0 ∧ Only pl v i ∧ OnPlane pl X ∧
      0 ≤ t ∧ t ≤ 1 ∧ X = along a t (vec3 a b) := by
  obtain ⟨xs, a, b, ys, rfl, hm, h1, h2⟩ := Props.SD.one_meets pl v hc
  have ka : height pl a ≠ 0 := hoff a (by simp)
  have kb : height pl b ≠ 0 := hoff b (by simp)
  have hin : ¬ InPlane pl (a, b) := fun h => ka h.1
  obtain ⟨k1, t, t0, t1, k2⟩ := crossing_spec pl (a, b) hm hin
  refine ⟨xs.length, a, b, _, t, by simp, by simp, ?_, ?_, k1, t0, t1, k2⟩
  · unfold Meets at hm
    simp only [not_and, not_lt] at hm
    rcases lt_or_gt_of_ne ka with h | h <;> rcases lt_or_gt_of_ne kb with h' | h'
    · exact absurd (hm.2 h) (not_le.mpr h')
    · exact mul_neg_of_neg_of_pos h h'
    · exact mul_neg_of_pos_of_neg h h'
    · exact absurd (hm.1 h) (not_le.mpr h')
  · intro j c d hj hj' hm'
    by_contra hne
    have hp := (pairs_get _ j c d).mpr ⟨hj, hj'⟩
    rw [pairs_mid] at hp
    have hl : (pairs (xs ++ [a])).length = xs.length := by rw [pairs_length]; simp
    rcases lt_or_gt_of_ne hne with h | h
    · rw [List.getElem?_append_left (by omega)] at hp
      exact h1 _ (List.mem_of_getElem? hp) hm'
    · rw [List.getElem?_append_right (by omega), hl, show j - xs.length = (j - xs.length - 1) + 1 by omega, List.getElem?_cons_succ] at hp
      exact h2 _ (List.mem_of_getElem? hp) hm'

theorem meets_of_opp {pl : Plane ℝ} {a b : V3 ℝ} (h : height pl a * height pl b < 0) : Meets pl (a, b) ∧ ¬ InPlane pl (a, b) := by
  refine ⟨⟨?_, ?_⟩, ?_⟩
  · rintro ⟨h1, h2⟩; simp only at h1 h2; nlinarith
  · rintro ⟨h1, h2⟩; simp only at h1 h2; nlinarith
  · rintro ⟨h1, h2⟩; simp only at h1 h2; rw [h1] at h; simp at h

/-- a part of an edge that does not meet the plane does not meet it either -/
theorem part_unmet {pl : Plane ℝ} {a b p q : V3 ℝ} (h : ¬ Meets pl (a, b)) (hp : OnSegment a b p) (hq : OnSegment a b q) :
    ¬ Meets pl (p, q) := by
  obtain ⟨s, s0, s1, rfl⟩ := hp
  obtain ⟨t, t0, t1, rfl⟩ := hq
  have h' : (0 < height pl a ∧ 0 < height pl b) ∨ (height pl a < 0 ∧ height pl b < 0) := by
    unfold Meets at h; simp only at h; tauto
  rintro ⟨k1, k2⟩
  simp only [height_along] at k1 k2
  generalize height pl a = A at *
  generalize height pl b = B at *
  rcases h' with ⟨hA, hB⟩ | ⟨hA, hB⟩
  · refine k1 ⟨?_, ?_⟩
    · rcases s1.lt_or_eq with h | h
      · nlinarith [mul_pos (sub_pos.mpr h) hA, mul_nonneg s0 hB.le]
      · rw [h]; linarith
    · rcases t1.lt_or_eq with h | h
      · nlinarith [mul_pos (sub_pos.mpr h) hA, mul_nonneg t0 hB.le]
      · rw [h]; linarith
  · refine k2 ⟨?_, ?_⟩
    · rcases s1.lt_or_eq with h | h
      · nlinarith [mul_pos (sub_pos.mpr h) (neg_pos.mpr hA), mul_nonneg s0 (neg_pos.mpr hB).le]
      · rw [h]; linarith
    · rcases t1.lt_or_eq with h | h
      · nlinarith [mul_pos (sub_pos.mpr h) (neg_pos.mpr hA), mul_nonneg t0 (neg_pos.mpr hB).le]
      · rw [h]; linarith

theorem seg_left (a b : V3 ℝ) : OnSegment a b a := ⟨0, le_rfl, by norm_num, by ext <;> simp [along]⟩
theorem seg_right (a b : V3 ℝ) : OnSegment a b b := ⟨1, by norm_num, le_rfl, by ext <;> simp [along, vec3]⟩

/-- vertices of the piece after a cut -/
theorem tail_get (X : V3 ℝ) (v : List (V3 ℝ)) (i j : ℕ) : (X :: v.drop (i + 1))[j + 1]? = v[i + 1 + j]? := by simp

theorem head_get {v : List (V3 ℝ)} (X : V3 ℝ) {i : ℕ} (hi : i < v.length) (j : ℕ) :
    (v.take (i + 1) ++ [X])[j]? = if j ≤ i then v[j]? else if j = i + 1 then some X else none := by
  have hl : (v.take (i + 1)).length = i + 1 := by simp; omega
  split_ifs with h h'
  · rw [List.getElem?_append_left (by omega), List.getElem?_take_of_lt (by omega)]
  · subst h'
    rw [List.getElem?_append_right (by omega), hl]; simp
  · rw [List.getElem?_append_right (by omega), hl]
    have : j - (i + 1) = (j - (i + 1) - 1) + 1 := by omega
    rw [this]; simp

/-- what is known about a plane that meets the polyline once, away from its vertices -/
structure Cut (pl : Plane ℝ) (v : List (V3 ℝ)) (i : ℕ) (a b X : V3 ℝ) (t : ℝ) : Prop where
  unit : UnitNormal pl
  fst : v[i]? = some a
  snd : v[i + 1]? = some b
  opp : height pl a * height pl b < 0
  only : Only pl v i
  on : OnPlane pl X
  t0 : 0 ≤ t
  t1 : t ≤ 1
  eq : X = along a t (vec3 a b)

variable {pl pl' : Plane ℝ} {v : List (V3 ℝ)} {i i' : ℕ} {a b X a' b' X' : V3 ℝ} {t t' : ℝ}

theorem Cut.seg (c : Cut pl v i a b X t) : OnSegment a b X := ⟨t, c.t0, c.t1, c.eq⟩

theorem Cut.lt (c : Cut pl v i a b X t) : i + 1 < v.length := by
  obtain ⟨h, -⟩ := List.getElem?_eq_some_iff.mp c.snd
  exact h

theorem Cut.first (c : Cut pl v i a b X t) :
    (0 < height pl b → (poly v false).cutByPlane pl = .ok (poly (X :: v.drop (i + 1)) false)) ∧
    (height pl b < 0 → (poly v false).cutByPlane pl = .ok (poly (v.take (i + 1) ++ [X]) false)) := by
  have k := meets_of_opp c.opp
  have r := cut_at c.unit c.fst c.snd k.1 k.2 c.only c.on c.seg
  have := c.opp
  refine ⟨fun h => r.1 ?_, fun h => r.2 ?_⟩ <;> nlinarith

/-- the second plane at a point of the edge of the first, if that edge is the same -/
theorem Cut.height_at (c : Cut pl v i a b X t) (c' : Cut pl' v i a b X' t') :
    height pl' X = (t - t') * (height pl' b - height pl' a) := by
  have h := c'.on
  rw [onPlane_iff, c'.eq, height_along] at h
  rw [c.eq, height_along]
  linarith

/-- cutting the piece that a first cut left at the end -/
theorem after_tail (c : Cut pl v i a b X t) (c' : Cut pl' v i' a' b' X' t') :
    ((i < i' ∨ i = i' ∧ t ≤ t') →
      (0 < height pl' b' → (poly (X :: v.drop (i + 1)) false).cutByPlane pl' = .ok (poly (X' :: v.drop (i' + 1)) false)) ∧
      (height pl' b' < 0 → (poly (X :: v.drop (i + 1)) false).cutByPlane pl' =
        .ok (poly (X :: ((v.drop (i + 1)).take (i' - i) ++ [X'])) false))) ∧
    (¬ (i < i' ∨ i = i' ∧ t ≤ t') → (poly (X :: v.drop (i + 1)) false).cutByPlane pl' = .error .ValueError) := by
  have z0 : ∀ x y, (X :: v.drop (i + 1))[0]? = some x → (X :: v.drop (i + 1))[0 + 1]? = some y → x = X ∧ y = b := by
    intro x y hx hy
    rw [tail_get, add_zero, c.snd] at hy
    exact ⟨(Option.some.inj hx).symm, (Option.some.inj hy).symm⟩
  rcases lt_trichotomy i i' with h | h | h
  · refine ⟨fun _ => ?_, fun hn => absurd (Or.inl h) hn⟩
    obtain ⟨k, rfl⟩ : ∃ k, i' = i + 1 + k := ⟨i' - (i + 1), by omega⟩
    have hun : ¬ Meets pl' (a, b) := fun hm => by have := c'.only i a b c.fst c.snd hm; omega
    have ho : Only pl' (X :: v.drop (i + 1)) (k + 1) := by
      intro j x y hx hy hm
      rcases j with _ | j
      · obtain ⟨rfl, rfl⟩ := z0 x y hx hy
        exact absurd hm (part_unmet hun c.seg (seg_right _ _))
      · rw [tail_get] at hx hy
        have := c'.only (i + 1 + j) x y hx hy hm
        omega
    have m := meets_of_opp c'.opp
    have r := cut_at (v := X :: v.drop (i + 1)) (i := k + 1) c'.unit (by rw [tail_get]; exact c'.fst)
      (by rw [tail_get]; exact c'.snd) m.1 m.2 ho c'.on c'.seg
    have := c'.opp
    refine ⟨fun hb => ?_, fun hb => ?_⟩
    · rw [r.1 (by nlinarith)]
      simp only [List.drop_succ_cons, List.drop_drop]
      congr 4
    · rw [r.2 (by nlinarith)]
      simp only [List.take_succ_cons, List.cons_append]
      congr 4
      simp; omega
  · subst h
    have e1 : a' = a := Option.some.inj (c'.fst.symm.trans c.fst)
    have e2 : b' = b := Option.some.inj (c'.snd.symm.trans c.snd)
    subst e1 e2
    have hX := c.height_at c'
    have hopp := c'.opp
    have hsame : ∀ j x y, (X :: v.drop (i + 1))[j]? = some x → (X :: v.drop (i + 1))[j + 1]? = some y → Meets pl' (x, y) → j = 0 := by
      intro j x y hx hy hm
      rcases j with _ | j
      · rfl
      · rw [tail_get] at hx hy
        have := c'.only (i + 1 + j) x y hx hy hm
        omega
    refine ⟨?_, fun hn => ?_⟩
    · rintro (h | ⟨-, ht⟩)
      · exact absurd h (lt_irrefl _)
      · have hb0 : height pl' b' ≠ 0 := by rintro h; rw [h] at hopp; simp at hopp
        have hm : Meets pl' (X, b') := by
          constructor
          · rintro ⟨h1, h2⟩
            simp only at h1 h2
            have : 0 < height pl' b' - height pl' a' := by nlinarith
            nlinarith
          · rintro ⟨h1, h2⟩
            simp only at h1 h2
            have : height pl' b' - height pl' a' < 0 := by nlinarith
            nlinarith
        have hs : OnSegment X b' X' := by
          by_cases h1 : t = 1
          · have : t' = 1 := le_antisymm c'.t1 (h1 ▸ ht)
            rw [c.eq, c'.eq, h1, this]
            exact seg_left _ _
          · have hpos : 0 < 1 - t := sub_pos.mpr (lt_of_le_of_ne c.t1 h1)
            refine ⟨(t' - t) / (1 - t), div_nonneg (by linarith) hpos.le, (div_le_one hpos).mpr (by linarith [c'.t1]), ?_⟩
            rw [c.eq, c'.eq]
            ext <;> simp only [along, vec3] <;> field_simp <;> ring
        have r := cut_at (v := X :: v.drop (i + 1)) (i := 0) c'.unit (by simp) (by rw [tail_get]; exact c.snd) hm
          (fun h => hb0 h.2) hsame c'.on hs
        refine ⟨fun hb => ?_, fun hb => ?_⟩
        · have : 0 < height pl' b' - height pl' a' := by nlinarith
          rw [r.1 (by nlinarith)]
          simp
        · have : height pl' b' - height pl' a' < 0 := by nlinarith
          rw [r.2 (by nlinarith)]
          simp
    · have ht : t' < t := by by_contra h; exact hn (Or.inr ⟨rfl, not_lt.mp h⟩)
      apply cut_none
      intro j x y hx hy hm
      obtain rfl := hsame j x y hx hy hm
      obtain ⟨rfl, rfl⟩ := z0 x y hx hy
      unfold Meets at hm
      simp only at hm
      rcases lt_or_gt_of_ne (show height pl' y ≠ 0 by rintro h; rw [h] at hopp; simp at hopp) with hb | hb
      · have : height pl' y - height pl' a' < 0 := by nlinarith
        exact hm.2 ⟨by nlinarith, hb⟩
      · have : 0 < height pl' y - height pl' a' := by nlinarith
        exact hm.1 ⟨by nlinarith, hb⟩
  · have hn : ¬ (i < i' ∨ i = i' ∧ t ≤ t') := by omega
    refine ⟨fun h => absurd h hn, fun _ => ?_⟩
    apply cut_none
    intro j x y hx hy hm
    rcases j with _ | j
    · obtain ⟨rfl, rfl⟩ := z0 x y hx hy
      refine part_unmet (a := a) (b := y) ?_ c.seg (seg_right _ _) hm
      intro hm'
      have := c'.only i a y c.fst c.snd hm'
      omega
    · rw [tail_get] at hx hy
      have := c'.only (i + 1 + j) x y hx hy hm
      omega

theorem Cut.reverse (c : Cut pl v i a b X t) : Cut pl v.reverse (v.length - 2 - i) b a X (1 - t) := by
  have hl := c.lt
  have get : ∀ j, j < v.length → v.reverse[j]? = v[v.length - 1 - j]? := fun j hj => List.getElem?_reverse hj
  refine ⟨c.unit, ?_, ?_, by rw [mul_comm]; exact c.opp, ?_, c.on, by linarith [c.t1], by linarith [c.t0], ?_⟩
  · rw [get _ (by omega), show v.length - 1 - (v.length - 2 - i) = i + 1 by omega]; exact c.snd
  · rw [get _ (by omega), show v.length - 1 - (v.length - 2 - i + 1) = i by omega]; exact c.fst
  · intro j x y hx hy hm
    have hj : j + 1 < v.length := by
      obtain ⟨h, -⟩ := List.getElem?_eq_some_iff.mp hy
      simpa using h
    rw [get _ (by omega)] at hx hy
    have := c.only (v.length - 2 - j) y x (by rw [← hy]; congr 1; omega) (by rw [← hx]; congr 1; omega) ((meets_swap pl x y).mp hm)
    omega
  · rw [c.eq]
    ext <;> simp only [along, vec3] <;> ring

theorem cut_reverse {w z : List (V3 ℝ)} (hu : UnitNormal pl) (hin : ∀ s ∈ chainSegs w false, ¬ InPlane pl s) :
    ((poly w.reverse false).cutByPlane pl = .ok (poly z.reverse false) → (poly w false).cutByPlane pl = .ok (poly z false)) ∧
    ((poly w.reverse false).cutByPlane pl = .error .ValueError → (poly w false).cutByPlane pl = .error .ValueError) := by
  rcases C117_reversed_open pl hu w (fun _ => hin) with ⟨y, h1, h2⟩ | ⟨e, h1, h2⟩
  · refine ⟨fun h => ?_, fun h => ?_⟩
    · rw [h2] at h
      have : y.reverse = z.reverse := by
        have h' := congrArg Polyline.v (Except.ok.inj h)
        simpa [poly] using h'
      rw [List.reverse_inj.mp this] at h1
      exact h1
    · rw [h2] at h; cases h
  · refine ⟨fun h => ?_, fun h => ?_⟩
    · rw [h2] at h; cases h
    · rw [h1, ← h2, h]

/-- cutting the piece that a first cut left at the start -/
theorem after_head (c : Cut pl v i a b X t) (c' : Cut pl' v i' a' b' X' t') (hoff : ∀ q ∈ v, ¬ OnPlane pl' q) :
    ((i' < i ∨ i = i' ∧ t' ≤ t) →
      (0 < height pl' b' → (poly (v.take (i + 1) ++ [X]) false).cutByPlane pl' =
        .ok (poly (X' :: ((v.drop (i' + 1)).take (i - i') ++ [X])) false)) ∧
      (height pl' b' < 0 → (poly (v.take (i + 1) ++ [X]) false).cutByPlane pl' = .ok (poly (v.take (i' + 1) ++ [X']) false))) ∧
    (¬ (i' < i ∨ i = i' ∧ t' ≤ t) → (poly (v.take (i + 1) ++ [X]) false).cutByPlane pl' = .error .ValueError) := by
  have hl := c.lt
  have hl' := c'.lt
  have r := after_tail c.reverse c'.reverse
  have hopp := c'.opp
  have hin : ∀ s ∈ chainSegs (v.take (i + 1) ++ [X]) false, ¬ InPlane pl' s := by
    rintro ⟨x, y⟩ hs ⟨h1, -⟩
    rw [show chainSegs (v.take (i + 1) ++ [X]) false = pairs (v.take (i + 1) ++ [X]) by simp [chainSegs, circuit]] at hs
    obtain ⟨j, hj⟩ := List.mem_iff_getElem?.mp hs
    obtain ⟨hx, hy⟩ := (pairs_get _ j x y).mp hj
    rw [head_get X (by omega)] at hx hy
    have : j ≤ i := by
      by_contra hc
      rw [if_neg (by omega), if_neg (by omega)] at hy
      cases hy
    rw [if_pos this] at hx
    exact hoff x (List.mem_of_getElem? hx) h1
  have e0 : (v.take (i + 1) ++ [X]).reverse = X :: v.reverse.drop (v.length - 2 - i + 1) := by
    rw [List.reverse_append, List.reverse_take, List.reverse_singleton, List.singleton_append]
    congr 2; omega
  have e1 : (v.take (i' + 1) ++ [X']).reverse = X' :: v.reverse.drop (v.length - 2 - i' + 1) := by
    rw [List.reverse_append, List.reverse_take, List.reverse_singleton, List.singleton_append]
    congr 2; omega
  have e2 : i' ≤ i → (X' :: ((v.drop (i' + 1)).take (i - i') ++ [X])).reverse =
      X :: ((v.reverse.drop (v.length - 2 - i + 1)).take (v.length - 2 - i' - (v.length - 2 - i)) ++ [X']) := by
    intro h
    rw [List.reverse_cons, List.reverse_append, List.reverse_singleton, List.singleton_append, List.cons_append]
    congr 2
    rw [List.reverse_take, List.reverse_drop, List.drop_take, List.length_drop]
    congr 1
    · omega
    · congr 1; omega
  have hc : (v.length - 2 - i < v.length - 2 - i' ∨ v.length - 2 - i = v.length - 2 - i' ∧ 1 - t ≤ 1 - t') ↔
      (i' < i ∨ i = i' ∧ t' ≤ t) := by
    constructor
    · rintro (h | ⟨h, h'⟩)
      · exact Or.inl (by omega)
      · exact Or.inr ⟨by omega, by linarith⟩
    · rintro (h | ⟨h, h'⟩)
      · exact Or.inl (by omega)
      · exact Or.inr ⟨by omega, by linarith⟩
  rw [hc] at r
  rw [← e0, ← e1] at r
  refine ⟨fun h => ⟨fun hb => ?_, fun hb => ?_⟩, fun h => (cut_reverse (z := []) c'.unit hin).2 (r.2 h)⟩
  · refine (cut_reverse c'.unit hin).1 ?_
    rw [(r.1 h).2 (by nlinarith), e2 (by omega)]
  · refine (cut_reverse c'.unit hin).1 ?_
    rw [(r.1 h).1 (by nlinarith)]

/-- everything after the crossed edge is on the side of its second end -/
theorem Cut.after (c : Cut pl v i a b X t) : ∀ j x, v[i + 1 + j]? = some x → 0 < height pl b * height pl x
  | 0, x, h => by
    obtain rfl : b = x := Option.some.inj (c.snd.symm.trans h)
    have := c.opp
    have : height pl b ≠ 0 := by rintro h; rw [h] at this; simp at this
    exact mul_self_pos.mpr this
  | j + 1, x, h => by
    obtain ⟨hlt, -⟩ := List.getElem?_eq_some_iff.mp h
    obtain ⟨y, hy⟩ : ∃ y, v[i + 1 + j]? = some y := ⟨_, List.getElem?_eq_getElem (by omega)⟩
    have ih := c.after j y hy
    have hm : ¬ Meets pl (y, x) := fun hm => by have := c.only _ y x hy h hm; omega
    unfold Meets at hm
    simp only at hm
    have hs : (0 < height pl y ∧ 0 < height pl x) ∨ (height pl y < 0 ∧ height pl x < 0) := by tauto
    rcases hs with ⟨h1, h2⟩ | ⟨h1, h2⟩
    · exact mul_pos (by by_contra hc; nlinarith) h2
    · exact mul_pos_of_neg_of_neg (by by_contra hc; nlinarith) h2

theorem Cut.keeps (c : Cut pl v i a b X t) : KeepsEnd pl v ↔ 0 < height pl b := by
  have hl := c.lt
  obtain ⟨x, hx⟩ : ∃ x, v[i + 1 + (v.length - 1 - (i + 1))]? = some x := ⟨_, List.getElem?_eq_getElem (by omega)⟩
  have h := c.after _ x hx
  have e : v.getLast? = some x := by
    rw [List.getLast?_eq_getElem?, ← hx]; congr 1; omega
  unfold KeepsEnd
  rw [e]
  constructor
  · rintro ⟨q, hq, h'⟩
    obtain rfl := Option.some.inj hq
    by_contra hc; nlinarith
  · intro h'
    exact ⟨x, rfl, by by_contra hc; nlinarith⟩

theorem Cut.neg (c : Cut pl v i a b X t) (h : ¬ 0 < height pl b) : height pl b < 0 := by
  have := c.opp
  exact lt_of_le_of_ne (not_lt.mp h) (by rintro h; rw [h] at this; simp at this)

theorem exists_cut (hu : UnitNormal pl) (hc : meetCount pl v false = 1) (hoff : ∀ q ∈ v, ¬ OnPlane pl q) :
    ∃ i a b X t, Cut pl v i a b X t := by
  obtain ⟨i, a, b, X, t, h1, h2, h3, h4, h5, h6, h7, h8⟩ := the_edge hc hoff
  exact ⟨i, a, b, X, t, hu, h1, h2, h3, h4, h5, h6, h7, h8⟩

end RC
open RC

theorem RC.only_of_one {pl : Plane ℝ} {xs ys : List (V3 ℝ)} {a b : V3 ℝ} (h1 : ∀ s ∈ pairs (xs ++ [a]), ¬ Meets pl s)
    (h2 : ∀ s ∈ pairs (b :: ys), ¬ Meets pl s) : Only pl (xs ++ a :: b :: ys) xs.length := by
  intro j c d hj hj' hm'
  by_contra hne
  have hp := (pairs_get _ j c d).mpr ⟨hj, hj'⟩
  rw [pairs_mid] at hp
  have hl : (pairs (xs ++ [a])).length = xs.length := by rw [pairs_length]; simp
  rcases lt_or_gt_of_ne hne with h | h
  · rw [List.getElem?_append_left (by omega)] at hp
    exact h1 _ (List.mem_of_getElem? hp) hm'
  · rw [List.getElem?_append_right (by omega), hl, show j - xs.length = (j - xs.length - 1) + 1 by omega, List.getElem?_cons_succ] at hp
    exact h2 _ (List.mem_of_getElem? hp) hm'

/-- **C130.** Cutting what is left with the same plane changes nothing: an open polyline met by the plane in one edge, not
lying in it, that has something strictly in front. -/
theorem C130_again (pl : Plane ℝ) (hu : UnitNormal pl) (v : List (V3 ℝ)) (hcount : meetCount pl v false = 1)
    (hin : ∀ s ∈ chainSegs v false, ¬ InPlane pl s) (hfront : ∃ q ∈ v, 0 < height pl q) :
    ∃ w, (poly v false).cutByPlane pl = .ok (poly w false) ∧ (poly w false).cutByPlane pl = .ok (poly w false) := by
  obtain ⟨xs, a, b, ys, rfl, hm, h1, h2⟩ := Props.SD.one_meets pl v hcount
  have hn : ¬ InPlane pl (a, b) := hin _ (by
    rw [show chainSegs (xs ++ a :: b :: ys) false = pairs (xs ++ a :: b :: ys) by simp [chainSegs, circuit], pairs_mid]; simp)
  have ho := only_of_one h1 h2
  obtain ⟨k1, k2⟩ := crossing_spec pl (a, b) hm hn
  generalize crossing pl (a, b) = X at k1 k2
  have ga : (xs ++ a :: b :: ys)[xs.length]? = some a := by simp
  have gb : (xs ++ a :: b :: ys)[xs.length + 1]? = some b := by simp
  have r := cut_at hu ga gb hm hn ho k1 k2
  have hX : height pl X = 0 := k1
  have hmem : ∀ q ∈ xs ++ a :: b :: ys, q ∈ xs ++ [a] ∨ q ∈ b :: ys := by
    intro q hq
    simp only [List.mem_append, List.mem_cons, List.not_mem_nil, or_false] at hq ⊢
    tauto
  have f1 := chain_front_end pl xs a h1
  have f2 := chain_front pl ys b h2
  have hm' := hm
  unfold Meets at hm'
  simp only at hm'
  obtain ⟨q, hq, hq0⟩ := hfront
  rcases lt_trichotomy (height pl a) (height pl b) with hlt | heq | hlt
  · have hb : 0 < height pl b := by
      by_contra hb
      rcases hmem q hq with hq | hq
      · linarith [f1.2.1 (by linarith) q hq]
      · linarith [f2.2.1 (by linarith) q hq]
    refine ⟨_, r.1 hlt, ?_⟩
    have r' := cut_at (v := X :: (xs ++ a :: b :: ys).drop (xs.length + 1)) (i := 0) (a := X) (b := b) (X := X) hu rfl
      (by rw [tail_get]; exact gb) ⟨fun h => by simp [hX] at h, fun h => by simp [hX] at h⟩ (fun h => hb.ne' h.2) (by
        intro j x y hx hy hm
        rcases j with _ | j
        · rfl
        · rw [tail_get] at hx hy
          have := ho _ x y hx hy hm
          omega) k1 (seg_left _ _)
    have := r'.1 (by linarith)
    simpa using this
  · exfalso
    have : height pl a = 0 := by
      rw [← heq] at hm'
      simp only [and_self, not_lt] at hm'
      exact le_antisymm hm'.1 hm'.2
    exact hn ⟨this, by simp only; rw [← heq]; exact this⟩
  · have ha : 0 < height pl a := by
      by_contra ha
      rcases hmem q hq with hq | hq
      · linarith [f1.2.1 (by linarith) q hq]
      · linarith [f2.2.1 (by linarith) q hq]
    refine ⟨_, r.2 hlt, ?_⟩
    have hi : xs.length < (xs ++ a :: b :: ys).length := by simp
    have g : ∀ j, ((xs ++ a :: b :: ys).take (xs.length + 1) ++ [X])[j]? = _ := head_get X hi
    have r' := cut_at (v := (xs ++ a :: b :: ys).take (xs.length + 1) ++ [X]) (i := xs.length) (a := a) (b := X) (X := X) hu
      (by rw [g, if_pos le_rfl]; exact ga) (by rw [g, if_neg (by omega), if_pos rfl])
      ⟨fun h => by simp [hX] at h, fun h => by simp [hX] at h⟩ (fun h => ha.ne' h.1) (by
        intro j x y hx hy hm
        rw [g] at hx hy
        by_cases hj : j + 1 ≤ xs.length
        · rw [if_pos hj] at hy
          rw [if_pos (by omega)] at hx
          exact ho _ x y hx hy hm
        · by_contra hne
          rw [if_neg (by omega), if_neg (by omega)] at hy
          cases hy) k1 (seg_right _ _)
    have := r'.2 (by linarith)
    rw [this]
    simp

/-- **C130.** If nothing of such a polyline is strictly in front, the cut has two vertices, the same point of the plane twice, and
cutting it again raises ValueError. -/
theorem C130_nothing_left (pl : Plane ℝ) (hu : UnitNormal pl) (v : List (V3 ℝ)) (hcount : meetCount pl v false = 1)
    (hin : ∀ s ∈ chainSegs v false, ¬ InPlane pl s) (hback : ∀ q ∈ v, height pl q ≤ 0) :
    ∃ X, (poly v false).cutByPlane pl = .ok (poly [X, X] false) ∧
      (poly ([X, X].map flPt) false).cutByPlane (flPlane pl) = .error .ValueError := by
  obtain ⟨xs, a, b, ys, rfl, hm, h1, h2⟩ := Props.SD.one_meets pl v hcount
  have hn : ¬ InPlane pl (a, b) := hin _ (by
    rw [show chainSegs (xs ++ a :: b :: ys) false = pairs (xs ++ a :: b :: ys) by simp [chainSegs, circuit], pairs_mid]; simp)
  have ho := only_of_one h1 h2
  have ga : (xs ++ a :: b :: ys)[xs.length]? = some a := by simp
  have gb : (xs ++ a :: b :: ys)[xs.length + 1]? = some b := by simp
  have ha := hback a (by simp)
  have hb := hback b (by simp)
  have hm' := hm
  unfold Meets at hm'
  simp only [not_and, not_lt] at hm'
  rcases ha.lt_or_eq with ha' | ha'
  · have hb0 : height pl b = 0 := le_antisymm hb (hm'.2 ha')
    have hy : ys = [] := by
      rcases ys with _ | ⟨y, ys⟩
      · rfl
      · exact absurd ⟨fun h => by simp [hb0] at h, fun h => by simp [hb0] at h⟩ (h2 (b, y) (by simp [pairs]))
    subst hy
    refine ⟨b, ?_, cut_in_plane pl hu b b ⟨hb0, hb0⟩⟩
    rw [(cut_at hu ga gb hm hn ho hb0 (seg_right _ _)).1 (by linarith)]
    simp
  · have hb' : height pl b < 0 := lt_of_le_of_ne hb fun h => hn ⟨ha', h⟩
    have hx : xs = [] := by
      rcases List.eq_nil_or_concat xs with h | ⟨zs, z, rfl⟩
      · exact h
      · have hz : Meets pl (z, a) := ⟨fun h => by simp [ha'] at h, fun h => by simp [ha'] at h⟩
        refine absurd hz (h1 (z, a) ?_)
        rw [List.concat_eq_append, List.append_assoc, List.singleton_append, pairs_mid]
        simp
    subst hx
    refine ⟨a, ?_, cut_in_plane pl hu a a ⟨ha', ha'⟩⟩
    rw [(cut_at hu ga gb hm hn ho ha' (seg_left _ _)).2 (by linarith)]
    simp

theorem RC.cut_count_fl (pl : Plane ℝ) (w : List (V3 ℝ)) (h : meetCount pl w false ≠ 1) :
    (poly (w.map flPt) false).cutByPlane (flPlane pl) = .error .ValueError := by
  have e : (Plane.flatnonzero ((chainSegs (w.map flPt) false).map (Polyline.edgeMeets (flPlane pl)))).length =
      meetCount pl w false := by
    rw [← meetCount_eq, chainSegs_map, List.map_map]
    congr 3
    funext s
    rw [Bool.eq_iff_iff, edgeMeets_real]
    exact edgeMeets_fl pl s
  unfold Polyline.cutByPlane
  rw [intersectPlane_eq, ok_bind]
  simp only [e]
  by_cases h0 : meetCount pl w false = 0
  · rw [if_pos h0]
  · have : ¬ (poly (w.map flPt) false).closed = true := by simp [poly]
    rw [if_neg h0, if_neg this, if_pos (by omega)]

/-- **C130.** What is left of a closed polyline starts and ends on the plane, and cannot be cut by the same plane again:
ValueError. -/
theorem C130_closed_again (pl : Plane ℝ) (hu : UnitNormal pl) (v : List (V3 ℝ)) (hcount : meetCount pl v true = 2)
    (hback : ∃ q ∈ v, height pl q < 0) :
    ∃ w, (poly v true).cutByPlane pl = .ok (poly w false) ∧
      (poly (w.map flPt) false).cutByPlane (flPlane pl) = .error .ValueError := by
  obtain ⟨w, h1, -, -, a, b, ha, hb, pa, pb⟩ := C40_front pl v hcount hback
  refine ⟨w, h1, ?_⟩
  by_cases hc : meetCount pl w false = 1
  · obtain ⟨xs, c, d, ys, rfl, hm, k1, k2⟩ := Props.SD.one_meets pl w hc
    have ho := only_of_one k1 k2
    have hxs : xs = [] := by
      rcases xs with _ | ⟨x, xs⟩
      · rfl
      · obtain rfl : x = a := by simpa using ha
        obtain ⟨y, hy⟩ : ∃ y, (x :: xs ++ c :: d :: ys)[0 + 1]? = some y := ⟨_, List.getElem?_eq_getElem (by simp)⟩
        have hx : height pl x = 0 := pa
        have := ho 0 x y (by simp) hy ⟨fun h => by simp [hx] at h, fun h => by simp [hx] at h⟩
        simp at this
    subst hxs
    have hys : ys = [] := by
      rcases List.eq_nil_or_concat ys with h | ⟨zs, z, rfl⟩
      · exact h
      · rw [List.concat_eq_append] at *
        obtain rfl : z = b := by
          have : ([] ++ c :: d :: (zs ++ [z])).getLast? = some z := by
            rw [List.nil_append, ← List.cons_append, ← List.cons_append, List.getLast?_concat]
          exact Option.some.inj (this.symm.trans hb)
        have hz : height pl z = 0 := pb
        obtain ⟨y, hy⟩ : ∃ y, ([] ++ c :: d :: (zs ++ [z]))[zs.length + 1]? = some y := ⟨_, List.getElem?_eq_getElem (by simp)⟩
        have := ho (zs.length + 1) y z hy (by simp) ⟨fun h => by simp [hz] at h, fun h => by simp [hz] at h⟩
        simp at this
    subst hys
    obtain rfl : c = a := by simpa using ha
    obtain rfl : d = b := by simpa using hb
    exact cut_in_plane pl hu c d ⟨pa, pb⟩
  · exact cut_count_fl pl w hc

/-- **C130.** Two planes that keep different ends of an open polyline may be applied in either order: the same piece
between them, or ValueError both times. -/
theorem C130_order (pl pl' : Plane ℝ) (hu : UnitNormal pl) (hu' : UnitNormal pl') (v : List (V3 ℝ))
    (hc : meetCount pl v false = 1) (hc' : meetCount pl' v false = 1) (hoff : ∀ q ∈ v, ¬ OnPlane pl q ∧ ¬ OnPlane pl' q)
    (hend : ¬ (KeepsEnd pl v ↔ KeepsEnd pl' v)) :
    ((poly v false).cutByPlane pl >>= fun p => p.cutByPlane pl') = ((poly v false).cutByPlane pl' >>= fun p => p.cutByPlane pl) := by
  obtain ⟨i, a, b, X, t, c⟩ := exists_cut hu hc fun q hq => (hoff q hq).1
  obtain ⟨i', a', b', X', t', c'⟩ := exists_cut hu' hc' fun q hq => (hoff q hq).2
  rw [c.keeps, c'.keeps] at hend
  by_cases h : 0 < height pl b
  · have h' : height pl' b' < 0 := c'.neg (by tauto)
    rw [c.first.1 h, c'.first.2 h']
    show (poly _ false).cutByPlane pl' = (poly _ false).cutByPlane pl
    have r := after_tail c c'
    have r' := after_head c' c fun q hq => (hoff q hq).1
    by_cases hb : i < i' ∨ i = i' ∧ t ≤ t'
    · rw [(r.1 hb).2 h', (r'.1 (by rw [eq_comm (a := i')]; exact hb)).1 h]
    · rw [r.2 hb, r'.2 (by rw [eq_comm (a := i')]; exact hb)]
  · have h' : 0 < height pl' b' := by tauto
    have h := c.neg h
    rw [c.first.2 h, c'.first.1 h']
    show (poly _ false).cutByPlane pl' = (poly _ false).cutByPlane pl
    have r := after_head c c' fun q hq => (hoff q hq).2
    have r' := after_tail c' c
    by_cases hb : i' < i ∨ i' = i ∧ t' ≤ t
    · rw [(r.1 (by rw [eq_comm (a := i)]; exact hb)).1 h', (r'.1 hb).2 h]
    · rw [r.2 (by rw [eq_comm (a := i)]; exact hb), r'.2 hb]

/-- **C130.** Two planes that keep the same end: the one nearer to that end decides.  Cutting with it after the other is the
same as cutting with it alone; in the other order there is nothing to cut and ValueError is raised — unless the two planes
give the same piece, and then any order gives it. -/
theorem C130_same_end (pl pl' : Plane ℝ) (hu : UnitNormal pl) (hu' : UnitNormal pl') (v : List (V3 ℝ))
    (hc : meetCount pl v false = 1) (hc' : meetCount pl' v false = 1) (hoff : ∀ q ∈ v, ¬ OnPlane pl q ∧ ¬ OnPlane pl' q)
    (hend : KeepsEnd pl v ↔ KeepsEnd pl' v) :
    ∃ w w', (poly v false).cutByPlane pl = .ok (poly w false) ∧ (poly v false).cutByPlane pl' = .ok (poly w' false) ∧
      (((poly w false).cutByPlane pl' = .ok (poly w' false) ∧ (poly w' false).cutByPlane pl = .error .ValueError) ∨
       ((poly w' false).cutByPlane pl = .ok (poly w false) ∧ (poly w false).cutByPlane pl' = .error .ValueError) ∨
       (w = w' ∧ (poly w false).cutByPlane pl' = .ok (poly w false) ∧ (poly w false).cutByPlane pl = .ok (poly w false))) := by
  obtain ⟨i, a, b, X, t, c⟩ := exists_cut hu hc fun q hq => (hoff q hq).1
  obtain ⟨i', a', b', X', t', c'⟩ := exists_cut hu' hc' fun q hq => (hoff q hq).2
  have hX : i = i' ∧ t = t' → X = X' := by
    rintro ⟨rfl, rfl⟩
    rw [c.eq, c'.eq, Option.some.inj (c.fst.symm.trans c'.fst), Option.some.inj (c.snd.symm.trans c'.snd)]
  rw [c.keeps, c'.keeps] at hend
  by_cases h : 0 < height pl b
  · have h' := hend.mp h
    refine ⟨_, _, c.first.1 h, c'.first.1 h', ?_⟩
    have r := after_tail c c'
    have r' := after_tail c' c
    by_cases hb : i < i' ∨ i = i' ∧ t ≤ t'
    · by_cases hb' : i' < i ∨ i' = i ∧ t' ≤ t
      · have he : i = i' ∧ t = t' := ⟨by omega, le_antisymm (by rcases hb with hb | hb; omega; exact hb.2) (by rcases hb' with hb | hb; omega; exact hb.2)⟩
        refine Or.inr (Or.inr ⟨by rw [hX he, he.1], ?_, ?_⟩)
        · rw [(r.1 hb).1 h', hX he, he.1]
        · have := (r'.1 hb').1 h
          rwa [← hX he, ← he.1] at this
      · exact Or.inl ⟨(r.1 hb).1 h', r'.2 hb'⟩
    · have hb' : i' < i ∨ i' = i ∧ t' ≤ t := by
        push Not at hb
        rcases lt_or_eq_of_le hb.1 with k | k
        · exact Or.inl k
        · exact Or.inr ⟨k, (hb.2 k.symm).le⟩
      exact Or.inr (Or.inl ⟨(r'.1 hb').1 h, r.2 hb⟩)
  · have h' := c'.neg (fun k => h (hend.mpr k))
    have h := c.neg h
    refine ⟨_, _, c.first.2 h, c'.first.2 h', ?_⟩
    have r := after_head c c' fun q hq => (hoff q hq).2
    have r' := after_head c' c fun q hq => (hoff q hq).1
    by_cases hb : i' < i ∨ i = i' ∧ t' ≤ t
    · by_cases hb' : i < i' ∨ i' = i ∧ t ≤ t'
      · have he : i = i' ∧ t = t' := ⟨by omega, le_antisymm (by rcases hb' with hb | hb; omega; exact hb.2) (by rcases hb with hb | hb; omega; exact hb.2)⟩
        refine Or.inr (Or.inr ⟨by rw [hX he, he.1], ?_, ?_⟩)
        · rw [(r.1 hb).2 h', hX he, he.1]
        · have := (r'.1 hb').2 h
          rwa [← hX he, ← he.1] at this
      · exact Or.inl ⟨(r.1 hb).2 h', r'.2 hb'⟩
    · have hb' : i < i' ∨ i' = i ∧ t ≤ t' := by
        push Not at hb
        rcases lt_or_eq_of_le hb.1 with k | k
        · exact Or.inl k
        · exact Or.inr ⟨k.symm, (hb.2 k).le⟩
      exact Or.inr (Or.inl ⟨(r'.1 hb').2 h, r.2 hb⟩)

/-! ### the path from `(0, 0, 0)` to `(3, 0, 0)` in three steps, cut at `x = 1/2` and at `x = 5/2` -/

namespace RC

/-- the path -/
def path : List (V3 ℝ) := [⟨0, 0, 0⟩, ⟨1, 0, 0⟩, ⟨2, 0, 0⟩, ⟨3, 0, 0⟩]

/-- what is right of `x = k` -/
def rightOf (k : ℝ) : Plane ℝ := ⟨⟨k, 0, 0⟩, ⟨1, 0, 0⟩⟩

/-- what is left of `x = k` -/
def leftOf (k : ℝ) : Plane ℝ := ⟨⟨k, 0, 0⟩, ⟨-1, 0, 0⟩⟩

theorem right_unit (k : ℝ) : UnitNormal (rightOf k) := by simp [UnitNormal, rightOf, len3]
theorem left_unit (k : ℝ) : UnitNormal (leftOf k) := by simp [UnitNormal, leftOf, len3]

theorem count_right : meetCount (rightOf (1 / 2)) path false = 1 ∧ meetCount (rightOf (5 / 2)) path false = 1 ∧
    meetCount (leftOf (5 / 2)) path false = 1 := by
  refine ⟨?_, ?_, ?_⟩ <;>
    norm_num [meetCount, chainSegs, circuit, pairs, path, List.countP_cons, Meets, height, inner3, vec3, rightOf, leftOf]

theorem path_off : (∀ q ∈ path, ¬ OnPlane (rightOf (1 / 2)) q ∧ ¬ OnPlane (leftOf (5 / 2)) q) ∧
    ∀ q ∈ path, ¬ OnPlane (rightOf (1 / 2)) q ∧ ¬ OnPlane (rightOf (5 / 2)) q := by
  constructor <;> intro q hq <;> simp only [path, List.mem_cons, List.not_mem_nil, or_false] at hq <;>
    rcases hq with rfl | rfl | rfl | rfl <;> norm_num [onPlane_iff, height, inner3, vec3, rightOf, leftOf]

theorem cutR (k : ℝ) (i : ℕ) (hi : i < 3) (h0 : (i : ℝ) < k) (h1 : k < i + 1) :
    Cut (rightOf k) path i ⟨i, 0, 0⟩ ⟨i + 1, 0, 0⟩ ⟨k, 0, 0⟩ (k - i) := by
  refine ⟨right_unit k, ?_, ?_, ?_, ?_, by simp [onPlane_iff, height, inner3, vec3, rightOf], by linarith, by linarith, by
    ext <;> simp [along, vec3]⟩
  · interval_cases i <;> simp [path]
  · interval_cases i <;> norm_num [path]
  · simp only [height, inner3, vec3, rightOf, mul_one, mul_zero, add_zero]; nlinarith
  · intro j a b ha hb hm
    have hj : j < 3 := by
      obtain ⟨h, -⟩ := List.getElem?_eq_some_iff.mp hb
      simp [path] at h; omega
    unfold Meets at hm
    interval_cases i <;> interval_cases j <;> first
      | rfl
      | (exfalso
         simp only [path, List.getElem?_cons_zero, List.getElem?_cons_succ, Option.some.injEq] at ha hb
         subst ha hb
         simp only [height, inner3, vec3, rightOf, not_and, not_lt] at hm
         norm_num at hm h0 h1
         first
           | linarith [hm.1 (by linarith)]
           | linarith [hm.2 (by linarith)])

end RC

/-- Both planes apply to the path: right of `1/2` and left of `5/2` in either order, right of `1/2` and then right of `5/2`
but not the other way round. -/
example :
    ((poly path false).cutByPlane (rightOf (1 / 2)) >>= fun p => p.cutByPlane (leftOf (5 / 2))) =
      ((poly path false).cutByPlane (leftOf (5 / 2)) >>= fun p => p.cutByPlane (rightOf (1 / 2))) ∧
    (∃ w, (poly path false).cutByPlane (rightOf (1 / 2)) = .ok (poly w false) ∧
      (poly w false).cutByPlane (rightOf (1 / 2)) = .ok (poly w false)) ∧
    ∃ w w', (poly path false).cutByPlane (rightOf (1 / 2)) = .ok (poly w false) ∧
      (poly path false).cutByPlane (rightOf (5 / 2)) = .ok (poly w' false) ∧
      (poly w false).cutByPlane (rightOf (5 / 2)) = .ok (poly w' false) ∧
      (poly w' false).cutByPlane (rightOf (1 / 2)) = .error .ValueError := by
  have last : path.getLast? = some ⟨3, 0, 0⟩ := rfl
  have kr : ∀ k : ℝ, k < 3 → KeepsEnd (rightOf k) path := fun k hk => ⟨_, last, by simpa [height, inner3, vec3, rightOf] using hk⟩
  have kl : ¬ KeepsEnd (leftOf (5 / 2)) path := by
    rintro ⟨q, hq, h⟩
    obtain rfl := Option.some.inj (last.symm.trans hq)
    norm_num [height, inner3, vec3, leftOf] at h
  refine ⟨C130_order _ _ (right_unit _) (left_unit _) path count_right.1 count_right.2.2 path_off.1 ?_,
    C130_again _ (right_unit _) path count_right.1 ?_ ⟨⟨3, 0, 0⟩, by simp [path], by norm_num [height, inner3, vec3, rightOf]⟩, ?_⟩
  · exact fun h => kl (h.mp (kr _ (by norm_num)))
  · rintro ⟨a, b⟩ hs ⟨h, -⟩
    have : a ∈ path := by
      rw [show chainSegs path false = pairs path by simp [chainSegs, circuit]] at hs
      obtain ⟨j, hj⟩ := List.mem_iff_getElem?.mp hs
      exact List.mem_of_getElem? ((pairs_get _ j a b).mp hj).1
    exact (path_off.1 a this).1 h
  · have c := cutR (1 / 2) 0 (by norm_num) (by norm_num) (by norm_num)
    have c' := cutR (5 / 2) 2 (by norm_num) (by norm_num) (by norm_num)
    have hb : ∀ k x : ℝ, k < x → 0 < height (rightOf k) ⟨x, 0, 0⟩ := fun k x h => by simpa [height, inner3, vec3, rightOf] using h
    exact ⟨_, _, c.first.1 (hb _ _ (by norm_num)), c'.first.1 (hb _ _ (by norm_num)),
      ((after_tail c c').1 (Or.inl (by norm_num))).1 (hb _ _ (by norm_num)), (after_tail c' c).2 (by norm_num)⟩

/-- a square cut in the middle cannot be cut there again -/
example : ∃ w, (poly [⟨-1, -1, 0⟩, ⟨1, -1, 0⟩, ⟨1, 1, 0⟩, ⟨-1, 1, 0⟩] true).cutByPlane (rightOf 0) = .ok (poly w false) ∧
    (poly (w.map flPt) false).cutByPlane (flPlane (rightOf 0)) = .error .ValueError :=
  C130_closed_again _ (right_unit _) _
    (by norm_num [meetCount, chainSegs, circuit, pairs, List.countP_cons, Meets, height, inner3, vec3, rightOf])
    ⟨⟨-1, -1, 0⟩, by simp, by norm_num [height, inner3, vec3, rightOf]⟩

/-- a segment that ends on the plane, behind it -/
example : ∃ X, (poly [⟨-1, 0, 0⟩, ⟨0, 0, 0⟩] false).cutByPlane (rightOf 0) = .ok (poly [X, X] false) ∧
    (poly ([X, X].map flPt) false).cutByPlane (flPlane (rightOf 0)) = .error .ValueError :=
  C130_nothing_left _ (right_unit _) _
    (by norm_num [meetCount, chainSegs, circuit, pairs, List.countP_cons, Meets, height, inner3, vec3, rightOf])
    (by
      rintro s hs ⟨h, -⟩
      simp only [chainSegs, circuit, Bool.false_eq_true, if_false, List.append_nil, pairs, List.mem_singleton] at hs
      subst hs
      norm_num [height, inner3, vec3, rightOf] at h)
    (by
      intro q hq
      simp only [List.mem_cons, List.not_mem_nil, or_false] at hq
      rcases hq with rfl | rfl <;> norm_num [height, inner3, vec3, rightOf])

end Blmath.Props
