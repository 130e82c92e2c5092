import Verif.Props.FlatSlice

/-!
Property C133: the length of the section of a convex solid is the perimeter of its outline.
-/

namespace Blmath.Props
open Blmath.Geometry Blmath.Spec Blmath.Proofs Blmath.Vx Blmath.TM

namespace GI
open CX

/-- a closed polygon of a plane, without repeated vertices, that has the figure `C` to its left -/
structure Hugs (n : V3 ℝ) (k : ℝ) (v : List (V3 ℝ)) (C : V3 ℝ → Prop) : Prop where
  nonempty : v ≠ []
  nodup : v.Nodup
  level : ∀ p ∈ v, inner3 n p = k
  pts : ∀ p ∈ v, C p
  left : RunsRound n v C
  strict : ∀ e ∈ cyclicPairs v, ∃ z, C z ∧ 0 < Blmath.TM.turn n e.1 e.2 z

variable {n : V3 ℝ} {k : ℝ} {C : V3 ℝ → Prop}

/-- in a plane, a vector without turn from another is a multiple of it -/
theorem multiple {d r : V3 ℝ} (hn : n ≠ zero3) (hd : d ≠ zero3) (h1 : inner3 n d = 0) (h2 : inner3 n r = 0) (h : det3 n d r = 0) :
    ∃ t, r = scale3 t d := by
  have e := perp h1 h2
  rw [h] at e
  have g := inner_self_pos hn
  have gd := inner_self_pos hd
  have hx := congrArg V3.x e
  have hy := congrArg V3.y e
  have hz := congrArg V3.z e
  simp only [scale3, zero_mul, mul_eq_zero, g.ne', false_or, cross3] at hx hy hz
  refine ⟨inner3 r d / inner3 d d, ?_⟩
  have key : ∀ a b : ℝ, inner3 d d * a = inner3 r d * b → a = inner3 r d / inner3 d d * b := by
    intro a b h
    field_simp
    linarith
  ext
  · refine key _ _ ?_
    simp only [inner3]
    linear_combination (-d.y) * hz + d.z * hy
  · refine key _ _ ?_
    simp only [inner3]
    linear_combination d.x * hz - d.z * hx
  · refine key _ _ ?_
    simp only [inner3]
    linear_combination (-d.x) * hy + d.y * hx

theorem flat_vec {a b : V3 ℝ} (ha : inner3 n a = k) (hb : inner3 n b = k) : inner3 n (vec3 a b) = 0 := by
  simp only [inner3, vec3] at ha hb ⊢; linarith

theorem mem_rotate {v : List (V3 ℝ)} (i : ℕ) {e : V3 ℝ × V3 ℝ} : e ∈ cyclicPairs (v.rotate i) ↔ e ∈ cyclicPairs v := by
  have : cyclicPairs (v.rotate i) = (cyclicPairs v).rotate i := by
    unfold cyclicPairs
    rw [List.rotate_rotate, Nat.add_comm, ← List.rotate_rotate, List.zip_eq_zipWith, List.zip_eq_zipWith,
      List.zipWith_rotate_distrib _ _ _ _ (by simp)]
  rw [this, List.mem_rotate]

theorem Hugs.rotate {v : List (V3 ℝ)} (h : Hugs n k v C) (i : ℕ) : Hugs n k (v.rotate i) C :=
  ⟨by simpa [List.rotate_eq_nil_iff] using h.nonempty, List.nodup_rotate.mpr h.nodup, fun p hp => h.level p (List.mem_rotate.mp hp),
    fun p hp => h.pts p (List.mem_rotate.mp hp), fun e he => h.left e ((mem_rotate i).mp he), fun e he => h.strict e ((mem_rotate i).mp he)⟩

/-- a straight vertex can be left out -/
theorem Hugs.drop (hn : n ≠ zero3) {x y z : V3 ℝ} {l : List (V3 ℝ)} (h : Hugs n k (x :: y :: z :: l) C)
    (hs : Blmath.TM.turn n x y z = 0) :
    Hugs n k (x :: z :: l) C ∧ tour (x :: z :: l) = tour (x :: y :: z :: l) ∧ InHull3 (x :: z :: l) y := by
  have hnd := h.nodup
  simp only [List.nodup_cons, List.mem_cons, not_or] at hnd
  obtain ⟨⟨hxy, hxz, hxl⟩, ⟨hyz, hyl⟩, hzl, hl⟩ := hnd
  have cp : cyclicPairs (x :: y :: z :: l) = (x, y) :: (y, z) :: (z :: l).zip (l ++ [x]) := by rw [cyclicPairs_cons]; rfl
  have cp' : cyclicPairs (x :: z :: l) = (x, z) :: (z :: l).zip (l ++ [x]) := by rw [cyclicPairs_cons]; rfl
  have lx := h.level x (by simp)
  have ly := h.level y (by simp)
  have lz := h.level z (by simp)
  obtain ⟨t, ht⟩ := multiple hn (vec_ne hxy) (flat_vec lx ly) (flat_vec ly lz) (d := vec3 x y) (r := vec3 y z) (by
    have : det3 n (vec3 x y) (vec3 y z) = Blmath.TM.turn n x y z := by
      simp only [Blmath.TM.turn, det3, inner3, cross3, vec3]; ring
    rw [this, hs])
  have tx := congrArg V3.x ht
  have ty := congrArg V3.y ht
  have tz := congrArg V3.z ht
  simp only [vec3, scale3] at tx ty tz
  have hz : z = ⟨y.x + t * (y.x - x.x), y.y + t * (y.y - x.y), y.z + t * (y.z - x.z)⟩ := by
    ext
    · show z.x = _; linarith
    · show z.y = _; linarith
    · show z.z = _; linarith
  obtain ⟨q0, hq0, hq0s⟩ := h.strict (x, y) (by rw [cp]; simp)
  have e1 : Blmath.TM.turn n y z q0 = t * Blmath.TM.turn n x y q0 := by
    rw [hz]; simp only [Blmath.TM.turn, det3, inner3, cross3, vec3]; ring
  have hle : 0 ≤ Blmath.TM.turn n y z q0 := h.left (y, z) (by rw [cp]; simp) q0 hq0
  have t0 : 0 < t := by
    rcases lt_trichotomy t 0 with ht | ht | ht
    · rw [e1] at hle
      have := mul_neg_of_neg_of_pos ht hq0s
      simp only at this
      linarith
    · exfalso
      apply hyz
      subst ht
      rw [hz]
      ext <;> simp
    · exact ht
  have tn : ∀ q, Blmath.TM.turn n x z q = (1 + t) * Blmath.TM.turn n x y q := by
    intro q
    rw [hz]; simp only [Blmath.TM.turn, det3, inner3, cross3, vec3]; ring
  refine ⟨⟨by simp, ?_, ?_, ?_, ?_, ?_⟩, ?_, ?_⟩
  · simp only [List.nodup_cons, List.mem_cons, not_or]
    exact ⟨⟨hxz, hxl⟩, hzl, hl⟩
  · intro p hp; exact h.level p (by simp only [List.mem_cons] at hp ⊢; tauto)
  · intro p hp; exact h.pts p (by simp only [List.mem_cons] at hp ⊢; tauto)
  · intro e he q hq
    rw [cp'] at he
    rcases List.mem_cons.mp he with rfl | he
    · have := h.left (x, y) (by rw [cp]; simp) q hq
      have e2 := tn q
      unfold Blmath.TM.turn at e2
      rw [e2]
      exact mul_nonneg (by linarith) this
    · exact h.left e (by rw [cp]; simp [he]) q hq
  · intro e he
    rw [cp'] at he
    rcases List.mem_cons.mp he with rfl | he
    · refine ⟨q0, hq0, ?_⟩
      simp only [tn]
      exact mul_pos (by linarith) hq0s
    · exact h.strict e (by rw [cp]; simp [he])
  · simp only [tour, walk]
    have d1 : dist3 y z = t * dist3 x y := by
      unfold dist3
      rw [ht, len3_scale, abs_of_pos t0]
    have d2 : dist3 x z = (1 + t) * dist3 x y := by
      have : vec3 x z = scale3 (1 + t) (vec3 x y) := by
        rw [hz]; ext <;> simp only [vec3, scale3] <;> ring
      unfold dist3
      rw [this, len3_scale, abs_of_pos (by linarith)]
    rw [d1, d2]; ring
  · refine inHull_mix (inHull_self (p := x) (by simp)) (inHull_self (p := z) (by simp)) (a := t / (1 + t)) (b := 1 / (1 + t))
      (by positivity) (by positivity) (by field_simp; ring) ?_ ?_ ?_
    · rw [hz]; field_simp; ring
    · rw [hz]; field_simp; ring
    · rw [hz]; field_simp; ring

/-- without straight vertices it is a convex polygon -/
theorem Hugs.convex (hn : n ≠ zero3) {v : List (V3 ℝ)} (h : Hugs n k v C) (h3 : 3 ≤ v.length)
    (hs : ∀ i, 0 < Blmath.TM.turn n (v.getD (i % v.length) zero3) (v.getD ((i + 1) % v.length) zero3) (v.getD ((i + 2) % v.length) zero3)) :
    LeftLoop n v := by
  obtain ⟨X, hX⟩ : ∃ X : ℕ → V3 ℝ, X = fun i => v.getD (i % v.length) zero3 := ⟨_, rfl⟩
  have lt : ∀ i, i % v.length < v.length := fun i => Nat.mod_lt _ (by omega)
  have mem : ∀ i, X i ∈ v := fun i => by rw [hX]; exact List.mem_of_getElem? (get_some _ (lt i))
  have edge : ∀ i, (X i, X (i + 1)) ∈ cyclicPairs v := by
    intro i
    refine cyclic_mem (i := i % v.length) ?_ ?_
    · rw [hX]; exact get_some _ (lt i)
    · rw [hX]
      have : (i % v.length + 1) % v.length = (i + 1) % v.length := by simp
      rw [this]
      exact get_some _ (lt _)
  have per : ∀ i, X (i + v.length) = X i := by intro i; rw [hX]; simp
  have hs' : ∀ i, 0 < Blmath.TM.turn n (X i) (X (i + 1)) (X (i + 2)) := by intro i; rw [hX]; exact hs i
  have nn : ∀ i p, p ∈ v → 0 ≤ Blmath.TM.turn n (X i) (X (i + 1)) p := fun i p hp => h.left _ (edge i) p (h.pts p hp)
  refine ⟨h3, h.nodup, ?_⟩
  intro e he p hp n1 n2
  obtain ⟨i, hi, e1, e2⟩ := mem_cyclic he
  obtain ⟨j, hj⟩ := List.mem_iff_getElem?.mp hp
  have hjl := (List.getElem?_eq_some_iff.mp hj).1
  have v1 : X i = e.1 := by rw [hX]; simp only; rw [Nat.mod_eq_of_lt hi]; exact getD_of e1
  have v2 : X (i + 1) = e.2 := by rw [hX]; exact getD_of e2
  have v3 : X j = p := by rw [hX]; simp only; rw [Nat.mod_eq_of_lt hjl]; exact getD_of hj
  have ge := nn i p hp
  rw [v1, v2] at ge
  refine lt_of_le_of_ne ge (fun h0 => ?_)
  -- `p` is on the line of the side
  have ne : e.1 ≠ e.2 := by
    intro hee
    have := hs' i
    rw [v1, v2, hee] at this
    have z0 : ∀ b c, Blmath.TM.turn n b b c = 0 := by
      intro b c; simp only [Blmath.TM.turn, det3, inner3, cross3, vec3]; ring
    rw [z0] at this
    exact lt_irrefl _ this
  have la : inner3 n e.1 = k := by rw [← v1]; exact h.level _ (mem i)
  have lb : inner3 n e.2 = k := by rw [← v2]; exact h.level _ (mem (i + 1))
  have lp := h.level p hp
  have hd := vec_ne ne
  have hnd := flat_vec la lb
  obtain ⟨t, ht⟩ := multiple hn hd hnd (flat_vec la lp) h0.symm
  have tx := congrArg V3.x ht
  have ty := congrArg V3.y ht
  have tz := congrArg V3.z ht
  simp only [vec3, scale3] at tx ty tz
  have hpe : p = ⟨e.1.x + t * (e.2.x - e.1.x), e.1.y + t * (e.2.y - e.1.y), e.1.z + t * (e.2.z - e.1.z)⟩ := by
    ext
    · show p.x = _; linarith
    · show p.y = _; linarith
    · show p.z = _; linarith
  -- not beyond the end
  have t1 : t < 1 := by
    have s2 := hs' i
    have g2 := nn (i + 1) p hp
    rw [v1, v2] at s2
    rw [v2] at g2
    have e3 : Blmath.TM.turn n e.2 (X (i + 1 + 1)) p = (1 - t) * Blmath.TM.turn n e.1 e.2 (X (i + 2)) := by
      rw [hpe, show i + 1 + 1 = i + 2 from rfl]; simp only [Blmath.TM.turn, det3, inner3, cross3, vec3]; ring
    rw [e3] at g2
    rcases lt_trichotomy t 1 with hh | hh | hh
    · exact hh
    · exfalso; apply n2
      rw [hpe, hh]; ext <;> simp
    · have := mul_neg_of_neg_of_pos (show 1 - t < 0 by linarith) s2
      linarith
  -- not before the start
  have t0 : 0 < t := by
    have s2 := hs' (i + (v.length - 1))
    have g2 := nn (i + (v.length - 1)) p hp
    rw [show i + (v.length - 1) + 1 = i + v.length by omega, per, v1] at s2 g2
    rw [show i + (v.length - 1) + 2 = i + 1 + v.length by omega, per, v2] at s2
    have e3 : Blmath.TM.turn n (X (i + (v.length - 1))) e.1 p = t * Blmath.TM.turn n (X (i + (v.length - 1))) e.1 e.2 := by
      rw [hpe]; simp only [Blmath.TM.turn, det3, inner3, cross3, vec3]; ring
    rw [e3] at g2
    rcases lt_trichotomy t 0 with hh | hh | hh
    · have := mul_neg_of_neg_of_pos hh s2
      linarith
    · exfalso; apply n1
      rw [hpe, hh]; ext <;> simp
    · exact hh
  -- so its neighbours are on the line too
  have ma : e.1 ∈ v := by rw [← v1]; exact mem i
  have mb : e.2 ∈ v := by rw [← v2]; exact mem (i + 1)
  have next : det3 n (vec3 e.1 e.2) (vec3 p (X (j + 1))) = 0 := by
    have ga := nn j e.1 ma
    have gb := nn j e.2 mb
    rw [v3] at ga gb
    have ea : Blmath.TM.turn n p (X (j + 1)) e.1 = t * det3 n (vec3 e.1 e.2) (vec3 p (X (j + 1))) := by
      rw [hpe]; simp only [Blmath.TM.turn, det3, inner3, cross3, vec3]; ring
    have eb : Blmath.TM.turn n p (X (j + 1)) e.2 = -((1 - t) * det3 n (vec3 e.1 e.2) (vec3 p (X (j + 1)))) := by
      rw [hpe]; simp only [Blmath.TM.turn, det3, inner3, cross3, vec3]; ring
    rw [ea] at ga
    rw [eb] at gb
    nlinarith
  have prev : det3 n (vec3 e.1 e.2) (vec3 (X (j + (v.length - 1))) p) = 0 := by
    have ga := nn (j + (v.length - 1)) e.1 ma
    have gb := nn (j + (v.length - 1)) e.2 mb
    rw [show j + (v.length - 1) + 1 = j + v.length by omega, per, v3] at ga gb
    have ea : Blmath.TM.turn n (X (j + (v.length - 1))) p e.1 = t * det3 n (vec3 e.1 e.2) (vec3 (X (j + (v.length - 1))) p) := by
      rw [hpe]; simp only [Blmath.TM.turn, det3, inner3, cross3, vec3]; ring
    have eb : Blmath.TM.turn n (X (j + (v.length - 1))) p e.2 = -((1 - t) * det3 n (vec3 e.1 e.2) (vec3 (X (j + (v.length - 1))) p)) := by
      rw [hpe]; simp only [Blmath.TM.turn, det3, inner3, cross3, vec3]; ring
    rw [ea] at ga
    rw [eb] at gb
    nlinarith
  obtain ⟨a, hap⟩ := multiple hn hd hnd (flat_vec lp (h.level _ (mem (j + 1)))) next
  obtain ⟨b, hbp⟩ := multiple hn hd hnd (flat_vec (h.level _ (mem (j + (v.length - 1)))) lp) prev
  have := hs' (j + (v.length - 1))
  rw [show j + (v.length - 1) + 1 = j + v.length by omega, per, v3, show j + (v.length - 1) + 2 = j + 1 + v.length by omega, per] at this
  have e4 : Blmath.TM.turn n (X (j + (v.length - 1))) p (X (j + 1)) = det3 n (vec3 (X (j + (v.length - 1))) p) (vec3 p (X (j + 1))) := by
    simp only [Blmath.TM.turn, det3, inner3, cross3, vec3]; ring
  rw [e4, hap, hbp] at this
  have e5 : det3 n (scale3 b (vec3 e.1 e.2)) (scale3 a (vec3 e.1 e.2)) = 0 := by
    simp only [det3, inner3, cross3, scale3]; ring
  rw [e5] at this
  exact lt_irrefl _ this

/-- leaving out all straight vertices gives a convex polygon of the same length -/
theorem Hugs.straighten (hn : n ≠ zero3) : ∀ (N : ℕ) (v : List (V3 ℝ)), v.length = N → Hugs n k v C →
    ∃ Q, LeftLoop n Q ∧ (∀ q ∈ Q, q ∈ v) ∧ tour Q = tour v ∧ ∀ p ∈ v, InHull3 Q p := by
  intro N
  induction N with
  | zero =>
    intro v hv h
    exact absurd (List.length_eq_zero_iff.mp hv) h.nonempty
  | succ N ih =>
    intro v hv h
    have z1 : ∀ b c, Blmath.TM.turn n b b c = 0 := by
      intro b c; simp only [Blmath.TM.turn, det3, inner3, cross3, vec3]; ring
    have h3 : 3 ≤ v.length := by
      match v, h with
      | [], h => exact absurd rfl h.nonempty
      | [a], h =>
        obtain ⟨z, -, hz⟩ := h.strict (a, a) (by rw [cyclicPairs_cons]; simp)
        rw [z1] at hz
        exact absurd hz (lt_irrefl _)
      | [a, b], h =>
        obtain ⟨z, hC, hz⟩ := h.strict (a, b) (by rw [cyclicPairs_cons]; simp)
        have h2 : 0 ≤ Blmath.TM.turn n b a z := h.left (b, a) (by rw [cyclicPairs_cons]; simp) z hC
        have e : Blmath.TM.turn n b a z = -Blmath.TM.turn n a b z := by
          simp only [Blmath.TM.turn, det3, inner3, cross3, vec3]; ring
        rw [e] at h2
        simp only at hz
        linarith
      | a :: b :: c :: l, _ => simp
    by_cases hs : ∀ i, 0 < Blmath.TM.turn n (v.getD (i % v.length) zero3) (v.getD ((i + 1) % v.length) zero3) (v.getD ((i + 2) % v.length) zero3)
    · exact ⟨v, h.convex hn h3 hs, fun q hq => hq, rfl, fun p hp => inHull_self hp⟩
    · push Not at hs
      obtain ⟨i, hi⟩ := hs
      have hr := h.rotate i
      have get : ∀ j, j < v.length → (v.rotate i)[j]? = some (v.getD ((i + j) % v.length) zero3) := by
        intro j hj
        rw [List.getElem?_rotate hj, Nat.add_comm]
        exact get_some _ (Nat.mod_lt _ (by omega))
      obtain ⟨x, y, z, l, hl⟩ : ∃ x y z l, v.rotate i = x :: y :: z :: l := by
        have hlen : 3 ≤ (v.rotate i).length := by rw [List.length_rotate]; exact h3
        match v.rotate i, hlen with
        | x :: y :: z :: l, _ => exact ⟨x, y, z, l, rfl⟩
      have g0 := get 0 (by omega)
      have g1 := get 1 (by omega)
      have g2 := get 2 (by omega)
      rw [hl] at g0 g1 g2 hr
      simp only [List.getElem?_cons_zero, List.getElem?_cons_succ, Option.some.injEq, Nat.add_zero] at g0 g1 g2
      rw [← g0, ← g1, ← g2] at hi
      have hge : 0 ≤ Blmath.TM.turn n x y z := hr.left (x, y) (by rw [cyclicPairs_cons]; simp) z (hr.pts z (by simp))
      obtain ⟨d1, d2, d3⟩ := hr.drop hn (le_antisymm hi hge)
      have hN : (x :: z :: l).length = N := by
        have := congrArg List.length hl
        rw [List.length_rotate, hv] at this
        simp only [List.length_cons] at this ⊢
        omega
      obtain ⟨Q, q1, q2, q3, q4⟩ := ih _ hN d1
      have mv : ∀ p, p ∈ x :: y :: z :: l ↔ p ∈ v := fun p => by rw [← hl, List.mem_rotate]
      refine ⟨Q, q1, fun q hq => (mv q).mp ?_, ?_, fun p hp => ?_⟩
      · have := q2 q hq
        simp only [List.mem_cons] at this ⊢
        tauto
      · rw [q3, d2, ← hl]
        exact (tour_rotated ⟨i, rfl⟩).symm
      · have := (mv p).mpr hp
        by_cases hpy : p = y
        · rw [hpy]; exact hull_trans d3 q4
        · refine q4 p ?_
          simp only [List.mem_cons] at this ⊢
          tauto

/-- so it is as long as the hull -/
theorem Hugs.tour_eq_hull (hn : n ≠ zero3) {v : List (V3 ℝ)} (h : Hugs n k v C) {m : V3 ℝ} {k' : ℝ} (hm : m ≠ zero3)
    (hlev : ∀ p ∈ v, inner3 m p = k') {Q : List (V3 ℝ)} (hQ : IsHull3 m v Q) (hsub : ∀ q ∈ Q, q ∈ v) : tour Q = tour v := by
  obtain ⟨R, r1, r2, r3, r4⟩ := h.straighten hn _ v rfl
  refine le_antisymm (TM.hull_le hm hlev hsub hQ hsub) ?_
  rw [← r3]
  have hc : Corners R := LeftLoop.corners r1
  have hRQ : ∀ q ∈ R, q ∈ Q := corners_unique hc (fun q hq => hQ.covers q (r2 q hq)) (fun q hq => r4 q (hsub q hq))
  have hull : IsHull3 n v R := ⟨r4, hc, .inl fun e he p hp => by
    obtain ⟨i, hi, e1, e2⟩ := mem_cyclic he
    have := LeftLoop.round r1 e he
    have : ∀ p ∈ R, inner3 (scale3 (-1) (cross3 n (vec3 e.1 e.2))) p ≤ inner3 (scale3 (-1) (cross3 n (vec3 e.1 e.2))) e.1 := by
      intro p hp
      have := LeftLoop.round r1 e he p hp
      simp only [Blmath.TM.turn, det3, inner3, cross3, vec3, scale3] at this ⊢
      linarith
    have := hull_bound (r4 p hp) this
    simp only [det3, inner3, cross3, vec3, scale3] at this ⊢
    linarith⟩
  exact TM.hull_le hn h.level r2 hull hRQ

/-- which side of a partition of the vertices the ends of an edge are on, if it is the same -/
def pat (bit : ℕ → Bool) (e : ℕ × ℕ) : Option Bool := if bit e.1 = bit e.2 then some (bit e.1) else none

/-- the edges of a face -/
def eks (f : ℕ × ℕ × ℕ) : List (ℕ × ℕ) := [Blmath.CH.ek f.1 f.2.1, Blmath.CH.ek f.1 f.2.2, Blmath.CH.ek f.2.1 f.2.2]

/-- no two edges have the same pattern -/
def Told (fs : List (ℕ × ℕ × ℕ)) (bits : List (ℕ → Bool)) : Prop :=
  ∀ f ∈ fs, ∀ g ∈ fs, ∀ e ∈ eks f, ∀ e' ∈ eks g, (∀ bit ∈ bits, pat bit e = pat bit e') → e = e'

instance (fs : List (ℕ × ℕ × ℕ)) (bits : List (ℕ → Bool)) : Decidable (Told fs bits) := by
  unfold Told; infer_instance

/-- edges told apart by affine functions with the values 0 and 1 at the vertices cross the plane in different points -/
theorem apart_of_bits {pl : Plane ℝ} {m : Mesh ℝ} {bits : List (ℕ → Bool)} (hT : Told m.f bits)
    (hb : ∀ bit ∈ bits, ∃ (w : V3 ℝ) (c : ℝ), ∀ (u : ℕ) p, m.v[u]? = some p → inner3 w p + c = if bit u then 1 else 0) :
    CrossingsApart pl m := by
  intro e e' q he he' hq hq'
  obtain ⟨f, hf, fe⟩ := he.2.1
  obtain ⟨g, hg, ge⟩ := he'.2.1
  have me : e ∈ eks f := by
    rcases Blmath.CH.edge_cases fe he.1 with h | h | h <;> simp [eks, ← h]
  have me' : e' ∈ eks g := by
    rcases Blmath.CH.edge_cases ge he'.1 with h | h | h <;> simp [eks, ← h]
  refine hT f hf g hg e me e' me' fun bit hbit => ?_
  obtain ⟨w, c, hw⟩ := hb bit hbit
  have val : ∀ {e : ℕ × ℕ}, CrossedEdge pl m e → CrossPoint pl m e q →
      (pat bit e = some true ∧ inner3 w q + c = 1) ∨ (pat bit e = some false ∧ inner3 w q + c = 0) ∨
        (pat bit e = none ∧ 0 < inner3 w q + c ∧ inner3 w q + c < 1) := by
    intro e he hq
    obtain ⟨a, b, t, ha, hb, t0, t1, rfl⟩ := between he hq
    have h1 := hw _ _ ha
    have h2 := hw _ _ hb
    have e3 : inner3 w (along a t (vec3 a b)) + c = (1 - t) * (inner3 w a + c) + t * (inner3 w b + c) := by
      rw [inner_along]; ring
    rw [e3, h1, h2]
    unfold pat
    cases hx : bit e.1 <;> cases hy : bit e.2 <;> simp <;> constructor <;> linarith
  rcases val he hq with ⟨p1, v1⟩ | ⟨p1, v1⟩ | ⟨p1, v1, v1'⟩ <;> rcases val he' hq' with ⟨p2, v2⟩ | ⟨p2, v2⟩ | ⟨p2, v2, v2'⟩ <;>
    first
      | (rw [p1, p2]; done)
      | (exfalso; linarith)

/-- the coordinates of the corners of a box -/
def boxBits : List (ℕ → Bool) := [fun u => decide (u = 1 ∨ u = 2 ∨ u = 5 ∨ u = 6), fun u => decide (4 ≤ u), fun u => decide (u = 2 ∨ u = 3 ∨ u = 6 ∨ u = 7)]

set_option maxRecDepth 100000 in
theorem box_told' : ∀ b0 b1 b2 b3 b4 b5 : Bool, Told (splitQuad b0 0 1 2 3 ++ (splitQuad b1 7 6 5 4 ++ (splitQuad b2 4 5 1 0 ++
    (splitQuad b3 5 6 2 1 ++ (splitQuad b4 6 7 3 2 ++ (splitQuad b5 3 7 4 0 ++ [])))))) boxBits := by
  decide +kernel

theorem box_apart (pl : Plane ℝ) (diag : ℕ → Bool) (o s : V3 ℝ) (hx : 0 < s.x) (hy : 0 < s.y) (hz : 0 < s.z) :
    CrossingsApart pl (SolidSlice.box diag o s) := by
  refine apart_of_bits (bits := boxBits) (box_told' (diag 0) (diag 1) (diag 2) (diag 3) (diag 4) (diag 5)) ?_
  have hv : (SolidSlice.box diag o s).v = [⟨o.x, o.y, o.z⟩, ⟨o.x + s.x, o.y, o.z⟩, ⟨o.x + s.x, o.y, o.z + s.z⟩, ⟨o.x, o.y, o.z + s.z⟩,
      ⟨o.x, o.y + s.y, o.z⟩, ⟨o.x + s.x, o.y + s.y, o.z⟩, ⟨o.x + s.x, o.y + s.y, o.z + s.z⟩, ⟨o.x, o.y + s.y, o.z + s.z⟩] := by
    simp [SolidSlice.box, createRectangularPrism, prismVertices, V3.ext_iff]
  rw [hv]
  have all : ∀ (P : ℕ → V3 ℝ → Prop) (a b c d e f g h : V3 ℝ), P 0 a → P 1 b → P 2 c → P 3 d → P 4 e → P 5 f → P 6 g → P 7 h →
      ∀ (u : ℕ) p, [a, b, c, d, e, f, g, h][u]? = some p → P u p := by
    intro P a b c d e f g h h0 h1 h2 h3 h4 h5 h6 h7 u p hp
    have hu : u < 8 := by simpa using (List.getElem?_eq_some_iff.mp hp).1
    interval_cases u <;> simp at hp <;> subst hp <;> assumption
  intro bit hbit
  simp only [boxBits, List.mem_cons, List.not_mem_nil, or_false] at hbit
  rcases hbit with rfl | rfl | rfl
  · refine ⟨⟨1 / s.x, 0, 0⟩, -(o.x / s.x), all _ _ _ _ _ _ _ _ _ ?_ ?_ ?_ ?_ ?_ ?_ ?_ ?_⟩ <;> simp [inner3] <;> field_simp <;> ring
  · refine ⟨⟨0, 1 / s.y, 0⟩, -(o.y / s.y), all _ _ _ _ _ _ _ _ _ ?_ ?_ ?_ ?_ ?_ ?_ ?_ ?_⟩ <;> simp [inner3] <;> field_simp <;> ring
  · refine ⟨⟨0, 0, 1 / s.z⟩, -(o.z / s.z), all _ _ _ _ _ _ _ _ _ ?_ ?_ ?_ ?_ ?_ ?_ ?_ ?_⟩ <;> simp [inner3] <;> field_simp <;> ring

/-- the coordinates of the corners of a triangular prism -/
def wedgeBits : List (ℕ → Bool) := [fun u => decide (3 ≤ u), fun u => decide (u = 1 ∨ u = 4), fun u => decide (u = 2 ∨ u = 5)]

theorem wedge_told : Told triPrismFaces wedgeBits := by decide +kernel

theorem wedge_apart (pl : Plane ℝ) (p1 p2 p3 : V3 ℝ) (c : ℝ) (hc : 0 < c) (hN : cross3 (vec3 p1 p2) (vec3 p1 p3) ≠ zero3) :
    CrossingsApart pl (SolidSlice.wedge p1 p2 p3 (scale3 (-c) (cross3 (vec3 p1 p2) (vec3 p1 p3)))) := by
  refine apart_of_bits (bits := wedgeBits) wedge_told ?_
  have hNN := inner_self_pos hN
  have all : ∀ (P : ℕ → V3 ℝ → Prop) (a b c d e f : V3 ℝ), P 0 a → P 1 b → P 2 c → P 3 d → P 4 e → P 5 f →
      ∀ (u : ℕ) p, [a, b, c, d, e, f][u]? = some p → P u p := by
    intro P a b c d e f h0 h1 h2 h3 h4 h5 u p hp
    have hu : u < 6 := by simpa using (List.getElem?_eq_some_iff.mp hp).1
    interval_cases u <;> simp at hp <;> subst hp <;> assumption
  have hNNe : inner3 (cross3 (vec3 p1 p2) (vec3 p1 p3)) (cross3 (vec3 p1 p2) (vec3 p1 p3)) =
      inner3 (cross3 (vec3 p1 p3) (cross3 (vec3 p1 p2) (vec3 p1 p3))) (vec3 p1 p2) := by
    simp only [inner3, cross3]; ring
  obtain ⟨N, hNd⟩ : ∃ N, N = cross3 (vec3 p1 p2) (vec3 p1 p3) := ⟨_, rfl⟩
  rw [← hNd] at hNN ⊢
  -- linear functions from the base point, with their values
  have mk : ∀ (w : V3 ℝ) (D : ℝ) (bit : ℕ → Bool), 0 < D →
      (inner3 w (vec3 p1 p2) = if bit 1 then D else 0) → (inner3 w (vec3 p1 p3) = if bit 2 then D else 0) → bit 0 = false →
      (∀ u, u < 3 → inner3 w (scale3 (-c) N) = (if bit (u + 3) then D else 0) - (if bit u then D else 0)) →
      ∃ (w : V3 ℝ) (k : ℝ), ∀ (u : ℕ) p, (SolidSlice.wedge p1 p2 p3 (scale3 (-c) N)).v[u]? = some p →
        inner3 w p + k = if bit u then 1 else 0 := by
    intro w D bit hD h2 h3 h0 hs
    have s0 := hs 0 (by omega)
    have s1 := hs 1 (by omega)
    have s2 := hs 2 (by omega)
    have fin : ∀ p u, inner3 w (vec3 p1 p) = (if bit u then D else 0) →
        inner3 (scale3 (1 / D) w) p + -(inner3 w p1 / D) = if bit u then 1 else 0 := by
      intro p u h
      have : inner3 (scale3 (1 / D) w) p + -(inner3 w p1 / D) = inner3 w (vec3 p1 p) / D := by
        simp only [inner3, scale3, vec3]; field_simp; ring
      rw [this, h]
      split
      · exact div_self hD.ne'
      · simp
    have e0 : inner3 w (vec3 p1 p1) = if bit 0 then D else 0 := by
      rw [h0]; simp only [inner3, vec3]; simp
    have add : ∀ p, inner3 w (vec3 p1 (p + scale3 (-c) N)) = inner3 w (vec3 p1 p) + inner3 w (scale3 (-c) N) := by
      intro p; simp only [inner3, vec3, V3.add_x, V3.add_y, V3.add_z]; ring
    refine ⟨scale3 (1 / D) w, -(inner3 w p1 / D), all _ _ _ _ _ _ _ (fin _ _ e0) (fin _ _ h2) (fin _ _ h3) (fin _ _ ?_) (fin _ _ ?_)
      (fin _ _ ?_)⟩
    · rw [add, e0, s0]; ring
    · rw [add, h2, s1]; ring
    · rw [add, h3, s2]; ring
  have n2 : inner3 N (vec3 p1 p2) = 0 := by rw [hNd]; simp only [inner3, cross3, vec3]; ring
  have n3 : inner3 N (vec3 p1 p3) = 0 := by rw [hNd]; simp only [inner3, cross3, vec3]; ring
  intro bit hbit
  simp only [wedgeBits, List.mem_cons, List.not_mem_nil, or_false] at hbit
  rcases hbit with rfl | rfl | rfl
  · refine mk (scale3 (-1) N) (c * inner3 N N) _ (by positivity) ?_ ?_ (by decide) ?_
    · rw [TM.inner_neg, n2]; simp
    · rw [TM.inner_neg, n3]; simp
    · intro u hu
      have : inner3 (scale3 (-1) N) (scale3 (-c) N) = c * inner3 N N := by simp only [inner3, scale3]; ring
      rw [this]
      interval_cases u <;> simp
  · refine mk (cross3 (vec3 p1 p3) N) (inner3 N N) _ hNN ?_ ?_ (by decide) ?_
    · simp only [decide_true, true_or, if_true]
      rw [hNd]; exact hNNe.symm
    · simp; simp only [inner3, cross3]; ring
    · intro u hu
      have : inner3 (cross3 (vec3 p1 p3) N) (scale3 (-c) N) = 0 := by simp only [inner3, scale3, cross3]; ring
      rw [this]
      interval_cases u <;> simp
  · refine mk (cross3 N (vec3 p1 p2)) (inner3 N N) _ hNN ?_ ?_ (by decide) ?_
    · simp; simp only [inner3, cross3]; ring
    · simp only [decide_true, true_or, if_true]
      rw [hNd]; simp only [inner3, cross3]; ring
    · intro u hu
      have : inner3 (cross3 N (vec3 p1 p2)) (scale3 (-c) N) = 0 := by simp only [inner3, scale3, cross3]; ring
      rw [this]
      interval_cases u <;> simp

/-- the vertices of a section are different if the crossing points are -/
theorem nodup_of_apart {pl : Plane ℝ} {m : Mesh ℝ} {es : List (ℕ × ℕ)} {v : List (V3 ℝ)} (hap : CrossingsApart pl m)
    (h : List.Forall₂ (CrossPoint pl m) es v) (hc : ∀ e ∈ es, CrossedEdge pl m e) (hnd : es.Nodup) : v.Nodup := by
  induction h with
  | nil => exact List.nodup_nil
  | @cons e q es v hq h ih =>
    rw [List.nodup_cons] at hnd ⊢
    refine ⟨fun hm => ?_, ih (fun e he => hc e (List.mem_cons_of_mem _ he)) hnd.2⟩
    have : ∃ e' ∈ es, CrossPoint pl m e' q := by
      clear ih hc hnd
      induction h with
      | nil => simp at hm
      | @cons e' q' es v hq' h ih =>
        rcases List.mem_cons.mp hm with rfl | hm
        · exact ⟨e', by simp, hq'⟩
        · obtain ⟨e', h1, h2⟩ := ih hm
          exact ⟨e', List.mem_cons_of_mem _ h1, h2⟩
    obtain ⟨e', h1, h2⟩ := this
    have := hap e e' q (hc e (by simp)) (hc e' (List.mem_cons_of_mem _ h1)) hq h2
    exact hnd.1 (this ▸ h1)

/-- a section hugs what the plane cuts out of the solid -/
theorem hugs_of {pl : Plane ℝ} {m : Mesh ℝ} {es : List (ℕ × ℕ)} {c : Section ℝ} (hn : pl.n ≠ zero3) (hv : ValidFaces m)
    (ho : OutwardMesh m) (hoff : ∀ p ∈ m.v, ¬ OnPlane pl p) (hap : CrossingsApart pl m) (h : Traces pl m es c)
    (hce : ∀ e ∈ es, CrossedEdge pl m e) (hnd : es.Nodup) (hc : c.closed = true) :
    ∃ n k, (n = pl.n ∨ n = scale3 (-1) pl.n) ∧ Hugs n k c.v (fun q => OnPlane pl q ∧ InHull3 m.v q) := by
  obtain ⟨n, h1, h2, h3⟩ := FS.loop_side hn hv ho hoff h hnd hc
  refine ⟨n, inner3 n pl.r0, h1, ?_, nodup_of_apart hap h.points hce hnd, ?_, ?_, h2, ?_⟩
  · have := (h.closing hc).1
    have hl := h.points.length_eq
    intro h0
    rw [h0] at hl
    simp at hl
    rw [hl] at this
    simp at this
  · intro p hp
    have := inner_of_onPlane (onPlane_of h hp)
    rcases h1 with rfl | rfl
    · exact this
    · rw [TM.inner_neg, TM.inner_neg, this]
  · intro p hp
    exact (FS.loop_hull hn hv ho hoff h hnd hc p).mp (inHull_self hp)
  · intro e he
    obtain ⟨z, z1, z2, z3⟩ := h3 e he
    exact ⟨z, ⟨z1, z2⟩, z3⟩

/-- what is known of one polyline of a section -/
structure Good (pl : Plane ℝ) (m : Mesh ℝ) (v : List (V3 ℝ)) : Prop where
  nodup : v.Nodup
  on : ∀ p ∈ v, OnPlane pl p
  outline : ∃ R, Outline pl m R ∧ ∀ q ∈ R, q ∈ v
  all : ∀ R, Outline pl m R → (∀ q ∈ R, q ∈ v) ∧ tour R = tour v
  hull : ∀ (n : V3 ℝ) (k : ℝ) (Q : List (V3 ℝ)), n ≠ zero3 → (∀ p ∈ v, inner3 n p = k) → IsHull3 n v Q → (∀ q ∈ Q, q ∈ v) → tour Q = tour v

theorem good_of {pl : Plane ℝ} {m : Mesh ℝ} {es : List (ℕ × ℕ)} {c : Section ℝ} (hn : pl.n ≠ zero3) (hv : ValidFaces m)
    (ho : OutwardMesh m) (hoff : ∀ p ∈ m.v, ¬ OnPlane pl p) (hap : CrossingsApart pl m) (h : Traces pl m es c)
    (hce : ∀ e ∈ es, CrossedEdge pl m e) (hnd : es.Nodup) (hc : c.closed = true) : Good pl m c.v := by
  obtain ⟨n, k, h1, hg⟩ := hugs_of hn hv ho hoff hap h hce hnd hc
  have hn' : n ≠ zero3 := by
    rcases h1 with rfl | rfl
    · exact hn
    · exact TM.neg_ne hn
  have hh := FS.loop_hull hn hv ho hoff h hnd hc
  have on : ∀ p ∈ c.v, OnPlane pl p := fun p hp => onPlane_of h hp
  have lev : ∀ p ∈ c.v, inner3 pl.n p = inner3 pl.n pl.r0 := fun p hp => inner_of_onPlane (on p hp)
  refine ⟨hg.nodup, on, ?_, ?_, ?_⟩
  · obtain ⟨R, r1, r2, r3, r4⟩ := hg.straighten hn' _ c.v rfl
    refine ⟨R, ⟨?_, fun q => ⟨fun hq => (hh q).mp (hull_trans hq fun p hp => inHull_self (r2 p hp)), fun hq => hull_trans ((hh q).mpr hq) r4⟩⟩, r2⟩
    rcases h1 with rfl | rfl
    · exact .inl r1
    · exact .inr r1
  · intro R hR
    have hc1 : Corners R := (ConvexLoop.isHull hR.1).minimal
    have sub : ∀ q ∈ R, q ∈ c.v := corners_unique hc1 (fun q hq => (hh q).mpr ((hR.2 q).mp (inHull_self hq)))
      (fun q hq => (hR.2 q).mpr ((hh q).mp (inHull_self hq)))
    have cov : ∀ p ∈ c.v, InHull3 R p := fun p hp => (hR.2 p).mpr ((hh p).mp (inHull_self hp))
    refine ⟨sub, hg.tour_eq_hull hn' hn lev ⟨cov, hc1, ?_⟩ sub⟩
    have side : ∀ {n : V3 ℝ}, LeftLoop n R → ∀ e ∈ cyclicPairs R, ∀ p ∈ c.v, 0 ≤ Blmath.TM.turn n e.1 e.2 p := by
      intro n r1 e he p hp
      have : ∀ p ∈ R, inner3 (scale3 (-1) (cross3 n (vec3 e.1 e.2))) p ≤ inner3 (scale3 (-1) (cross3 n (vec3 e.1 e.2))) e.1 := by
        intro p hp
        have := LeftLoop.round r1 e he p hp
        simp only [Blmath.TM.turn, det3, inner3, cross3, vec3, scale3] at this ⊢
        linarith
      have := hull_bound (cov p hp) this
      simp only [Blmath.TM.turn, det3, inner3, cross3, vec3, scale3] at this ⊢
      linarith
    rcases hR.1 with r | r
    · exact .inl (side r)
    · refine .inr fun e he p hp => ?_
      have := side r e he p hp
      simp only [Blmath.TM.turn, det3, inner3, cross3, vec3, scale3] at this ⊢
      linarith
  · intro m k Q hm hlev hQ hsub
    exact hg.tour_eq_hull hn' hm hlev hQ hsub

/-- there is only one -/
theorem one (ver : PyVer) (pk : ℕ → Picker) (ko : ℕ → KeyOrder) (pl : Plane ℝ) (m : Mesh ℝ)
    (hn : pl.n ≠ zero3) (hv : ValidFaces m) (hp : ∀ f ∈ m.f, ProperFace f) (hoff : ∀ p ∈ m.v, ¬ OnPlane pl p)
    (hcl : ClosedMesh m) (ho : OutwardMesh m) (hap : CrossingsApart pl m) (he : ∃ e, CrossedEdge pl m e) :
    ∃ v, pl.meshXsections ver pk ko m = .ok [⟨v, true⟩] ∧ Good pl m v := by
  obtain ⟨cs, ess, h1, h2, h3, h4, h5⟩ := C31_manifold ver pk ko pl m hv hp hoff (CX.manifold_of_closed hcl) (.inl hcl)
  have h5 := h5 hcl
  have good : ∀ es c, Traces pl m es c → es.Nodup → (∀ e ∈ es, CrossedEdge pl m e) → c.closed = true → Good pl m c.v :=
    fun es c t a b cl => good_of hn hv ho hoff hap t b a cl
  match ess, cs, h2 with
  | [], [], _ =>
    obtain ⟨e, he⟩ := he
    exact absurd ((h4 e).mpr he) (by simp)
  | [es], [c], .cons t _ =>
    have cl := h5 c (by simp)
    have g := good es c t (by simpa using h3) (fun e he => (h4 e).mp (by simpa using he)) cl
    obtain ⟨v, b⟩ := c
    simp only at cl
    subst cl
    exact ⟨v, h1, g⟩
  | es :: es' :: ess, c :: c' :: cs, .cons t (.cons t' _) =>
    exfalso
    simp only [List.flatten_cons, List.nodup_append] at h3
    have x1 : ∀ e ∈ es, CrossedEdge pl m e := fun e he => (h4 e).mp (by simp [he])
    have x2 : ∀ e ∈ es', CrossedEdge pl m e := fun e he => (h4 e).mp (by simp [he])
    have g := good es c t h3.1 x1 (h5 c (by simp))
    have g' := good es' c' t' h3.2.1.1 x2 (h5 c' (by simp))
    obtain ⟨R, hR, hs⟩ := g.outline
    have hs' := (g'.all R hR).1
    have hR3 : 3 ≤ R.length := hR.1.elim (·.size) (·.size)
    obtain ⟨q, hq⟩ : ∃ q, q ∈ R := by
      cases R with
      | nil => simp at hR3
      | cons q _ => exact ⟨q, by simp⟩
    obtain ⟨e, e1, e2⟩ := point_of t (hs q hq)
    obtain ⟨e', e1', e2'⟩ := point_of t' (hs' q hq)
    have := hap e e' q (x1 e e1) (x2 e' e1') e2 e2'
    exact h3.2.2 e e1 e' (List.mem_append_left _ e1') this

end GI
open GI

/-- **C133.** The section of a closed mesh that looks outward from a convex solid, cut away from its vertices so that different edges are
met in different points: one closed polyline, without repeated vertices, as long as the convex polygon that bounds the solid in the plane. -/
theorem C133_length (ver : PyVer) (pk : ℕ → Picker) (ko : ℕ → KeyOrder) (pl : Plane ℝ) (m : Mesh ℝ)
    (hn : pl.n ≠ zero3) (hv : ValidFaces m) (hp : ∀ f ∈ m.f, ProperFace f) (hoff : ∀ p ∈ m.v, ¬ OnPlane pl p)
    (hcl : ClosedMesh m) (ho : OutwardMesh m) (hap : CrossingsApart pl m) (he : ∃ e, CrossedEdge pl m e) :
    ∃ v, pl.meshXsections ver pk ko m = .ok [⟨v, true⟩] ∧ v.Nodup ∧ (∃ R, Outline pl m R) ∧
      ∀ R, Outline pl m R → (∀ q ∈ R, q ∈ v) ∧ (poly v true).totalLength = .ok (pathLength (circuit R true)) := by
  obtain ⟨v, h1, g⟩ := one ver pk ko pl m hn hv hp hoff hcl ho hap he
  refine ⟨v, h1, g.nodup, g.outline.imp fun _ h => h.1, fun R hR => ⟨(g.all R hR).1, ?_⟩⟩
  rw [(C35_lengths v true).2, tour_eq, tour_eq, (g.all R hR).2]

/-- **C133.** `convexify_planar_curve` does not change the length of such a section. -/
theorem C133_convexify (ver : PyVer) (pk : ℕ → Picker) (ko : ℕ → KeyOrder) (pl : Plane ℝ) (m : Mesh ℝ)
    (hn : pl.n ≠ zero3) (hv : ValidFaces m) (hp : ∀ f ∈ m.f, ProperFace f) (hoff : ∀ p ∈ m.v, ¬ OnPlane pl p)
    (hcl : ClosedMesh m) (ho : OutwardMesh m) (hap : CrossingsApart pl m) (he : ∃ e, CrossedEdge pl m e) :
    ∃ v, pl.meshXsections ver pk ko m = .ok [⟨v, true⟩] ∧
      ∀ (env : HullEnv ℝ) (want : Bool) (na : NormalArg ℝ) (n : V3 ℝ) (c : ℝ), UsesNormal env v na n → n ≠ zero3 →
        (∀ p ∈ v, inner3 n p = c) → ∀ idx, env.hull (v.map (dropDim (argmax3 (n.map npAbs)))) = .ok idx →
        HullSpec (v.map (dropDim (argmax3 (n.map npAbs)))) idx →
        ∃ qs i, convexify env (poly v true) false want na = .ok (poly qs true, i) ∧
          (poly qs true).totalLength = (poly v true).totalLength := by
  obtain ⟨v, h1, g⟩ := one ver pk ko pl m hn hv hp hoff hcl ho hap he
  refine ⟨v, h1, fun env want na n c hna hn0 hpl idx hh hs => ?_⟩
  obtain ⟨R, hR, hsub⟩ := g.outline
  have h3 : 3 ≤ R.length := hR.1.elim (·.size) (·.size)
  have hnd : R.Nodup := hR.1.elim (·.nodup) (·.nodup)
  have : 3 ≤ v.length := h3.trans (hnd.subperm hsub).length_le
  obtain ⟨qs, k1, k2, k3⟩ := C57_planar env v true want na n c (by omega) hna hn0 hpl idx hh hs
  refine ⟨qs, _, k1, ?_⟩
  rw [(C35_lengths qs true).2, (C35_lengths v true).2, tour_eq, tour_eq, g.hull n c qs hn0 hpl k3 (picks_mem k2)]

namespace GI

/-- there is a crossed edge if there is a section -/
theorem crossed_of (ver : PyVer) (pk : ℕ → Picker) (ko : ℕ → KeyOrder) {pl : Plane ℝ} {m : Mesh ℝ} (h : SlicedOnce ver pk ko pl m)
    (hcut : ∃ p ∈ m.v, ∃ q ∈ m.v, height pl p * height pl q < 0) : ∃ e, CrossedEdge pl m e := by
  obtain ⟨c, es, -, -, h3, h4, -, h6, -⟩ := h.2 hcut
  have hl := h4.points.length_eq
  cases es with
  | nil => rw [← hl] at h3; simp at h3
  | cons e _ => exact ⟨e, (h6 e).mp (by simp)⟩

end GI

/-- **C133.** A rectangular prism of positive size cut by a plane that passes between its corners. -/
theorem C133_prism (ver : PyVer) (pk : ℕ → Picker) (ko : ℕ → KeyOrder) (pl : Plane ℝ) (diag : ℕ → Bool) (o s : V3 ℝ)
    (hn : pl.n ≠ zero3) (hoff : ∀ p ∈ (createRectangularPrism diag o s).1, ¬ OnPlane pl p) (hx : 0 < s.x) (hy : 0 < s.y) (hz : 0 < s.z)
    (hcut : ∃ p ∈ (createRectangularPrism diag o s).1, ∃ q ∈ (createRectangularPrism diag o s).1, height pl p * height pl q < 0) :
    ∃ v, pl.meshXsections ver pk ko ⟨(createRectangularPrism diag o s).1, (createRectangularPrism diag o s).2⟩ = .ok [⟨v, true⟩] ∧
      v.Nodup ∧ (∃ R, Outline pl ⟨(createRectangularPrism diag o s).1, (createRectangularPrism diag o s).2⟩ R) ∧
      ∀ R, Outline pl ⟨(createRectangularPrism diag o s).1, (createRectangularPrism diag o s).2⟩ R →
        (∀ q ∈ R, q ∈ v) ∧ (poly v true).totalLength = .ok (pathLength (circuit R true)) := by
  obtain ⟨hv, hp, hcl⟩ := SolidSlice.box_facts diag o s
  exact C133_length ver pk ko pl (SolidSlice.box diag o s) hn hv hp hoff hcl (FS.box_outward diag o s hx hy hz)
    (box_apart pl diag o s hx hy hz) (crossed_of ver pk ko (C121_prism ver pk ko pl diag o s hoff) hcut)

/-- **C133.** The same for the triangular prism of positive height. -/
theorem C133_tri (ver : PyVer) (pk : ℕ → Picker) (ko : ℕ → KeyOrder) (pl : Plane ℝ) (p1 p2 p3 : V3 ℝ) (h : ℝ) (hn : pl.n ≠ zero3)
    (vs : List (V3 ℝ)) (fs : List (ℕ × ℕ × ℕ)) (hr : createTriangularPrism p1 p2 p3 h = .ok (vs, fs)) (hh : 0 < h)
    (hoff : ∀ p ∈ vs, ¬ OnPlane pl p) (hcut : ∃ p ∈ vs, ∃ q ∈ vs, height pl p * height pl q < 0) :
    ∃ v, pl.meshXsections ver pk ko ⟨vs, fs⟩ = .ok [⟨v, true⟩] ∧ v.Nodup ∧ (∃ R, Outline pl ⟨vs, fs⟩ R) ∧
      ∀ R, Outline pl ⟨vs, fs⟩ R → (∀ q ∈ R, q ∈ v) ∧ (poly v true).totalLength = .ok (pathLength (circuit R true)) := by
  obtain ⟨c, hc, hN, hm⟩ := FS.wedge_of hr hh
  have ho := FS.wedge_outward p1 p2 p3 c hc hN
  have ha := wedge_apart pl p1 p2 p3 c hc hN
  obtain ⟨hv, hp, hcl⟩ := SolidSlice.wedge_facts p1 p2 p3 (scale3 (-c) (cross3 (vec3 p1 p2) (vec3 p1 p3)))
  rw [← hm] at ho ha hv hp hcl
  exact C133_length ver pk ko pl ⟨vs, fs⟩ hn hv hp hoff hcl ho ha (crossed_of ver pk ko (C121_tri ver pk ko pl p1 p2 p3 h vs fs hr hoff) hcut)

namespace GI
open CX

/-- the rectangle a horizontal plane cuts out of a box -/
def rect (o s : V3 ℝ) (h : ℝ) : List (V3 ℝ) := [⟨o.x, h, o.z⟩, ⟨o.x, h, o.z + s.z⟩, ⟨o.x + s.x, h, o.z + s.z⟩, ⟨o.x + s.x, h, o.z⟩]

theorem rect_hull (o s q : V3 ℝ) (h : ℝ) (hx : 0 < s.x) (hz : 0 < s.z) :
    InHull3 (rect o s h) q ↔ q.y = h ∧ (o.x ≤ q.x ∧ q.x ≤ o.x + s.x) ∧ (o.z ≤ q.z ∧ q.z ≤ o.z + s.z) := by
  unfold rect
  constructor
  · intro hq
    have up : ∀ w : V3 ℝ, ∀ k, _ → inner3 w q ≤ k := fun w k hk => hull_bound (w := w) (k := k) hq hk
    have x1 := up ⟨1, 0, 0⟩ (o.x + s.x) (by simp [inner3, hx.le])
    have x2 := up ⟨-1, 0, 0⟩ (-o.x) (by simp [inner3, hx.le])
    have y1 := up ⟨0, 1, 0⟩ h (by simp [inner3])
    have y2 := up ⟨0, -1, 0⟩ (-h) (by simp [inner3])
    have z1 := up ⟨0, 0, 1⟩ (o.z + s.z) (by simp [inner3, hz.le])
    have z2 := up ⟨0, 0, -1⟩ (-o.z) (by simp [inner3, hz.le])
    simp only [inner3] at x1 x2 y1 y2 z1 z2
    refine ⟨by linarith, ⟨?_, ?_⟩, ?_, ?_⟩ <;> linarith
  · rintro ⟨hy, ⟨x1, x2⟩, z1, z2⟩
    generalize hl : [(⟨o.x, h, o.z⟩ : V3 ℝ), ⟨o.x, h, o.z + s.z⟩, ⟨o.x + s.x, h, o.z + s.z⟩, ⟨o.x + s.x, h, o.z⟩] = l
    have mix : ∀ (lo d x : ℝ), 0 < d → lo ≤ x → x ≤ lo + d → 0 ≤ (lo + d - x) / d ∧ 0 ≤ (x - lo) / d ∧ (lo + d - x) / d + (x - lo) / d = 1 ∧
        x = (lo + d - x) / d * lo + (x - lo) / d * (lo + d) := by
      intro lo d x hd h1 h2
      refine ⟨div_nonneg (by linarith) hd.le, div_nonneg (by linarith) hd.le, ?_, ?_⟩
      · field_simp; ring
      · field_simp; ring
    obtain ⟨a1, a2, a3, a4⟩ := mix _ _ _ hx x1 x2
    obtain ⟨c1, c2, c3, c4⟩ := mix _ _ _ hz z1 z2
    have lx : ∀ z, InHull3 l ⟨o.x, h, z⟩ → InHull3 l ⟨o.x + s.x, h, z⟩ → InHull3 l ⟨q.x, h, z⟩ := fun z h1 h2 =>
      inHull_mix h1 h2 a1 a2 a3 a4 (by rw [← add_mul, a3, one_mul]) (by rw [← add_mul, a3, one_mul])
    have lz : InHull3 l ⟨q.x, h, o.z⟩ → InHull3 l ⟨q.x, h, o.z + s.z⟩ → InHull3 l ⟨q.x, h, q.z⟩ := fun h1 h2 =>
      inHull_mix h1 h2 c1 c2 c3 (by rw [← add_mul, c3, one_mul]) (by rw [← add_mul, c3, one_mul]) c4
    have e : q = ⟨q.x, h, q.z⟩ := by rw [← hy]
    rw [e]
    refine lz (lx _ ?_ ?_) (lx _ ?_ ?_) <;> exact inHull_self (by rw [← hl]; simp)

theorem rect_loop (o s : V3 ℝ) (h : ℝ) (hx : 0 < s.x) (hz : 0 < s.z) : LeftLoop ⟨0, 1, 0⟩ (rect o s h) := by
  refine ⟨by simp [rect], ?_, ?_⟩
  · simp [rect, hx.ne', hz.ne']
  · simp [rect, cyclicPairs, List.rotate, det3, vec3, hx.ne', hz.ne', inner3, cross3]
    exact ⟨mul_pos hz hx, mul_pos hx hz, mul_pos hz hx, mul_pos hx hz⟩

theorem rect_length (o s : V3 ℝ) (h : ℝ) (hx : 0 < s.x) (hz : 0 < s.z) : pathLength (circuit (rect o s h) true) = 2 * (s.x + s.z) := by
  simp [rect, circuit, pathLength, pairs, dist3, vec3, len3, Real.sqrt_sq hx.le, Real.sqrt_sq hz.le]
  ring

end GI

/-- **C133.** In particular a horizontal cut through a rectangular prism is as long as the perimeter of the base. -/
theorem C133_level (ver : PyVer) (pk : ℕ → Picker) (ko : ℕ → KeyOrder) (r0 : V3 ℝ) (diag : ℕ → Bool) (o s : V3 ℝ)
    (hx : 0 < s.x) (hz : 0 < s.z) (h1 : o.y < r0.y) (h2 : r0.y < o.y + s.y) :
    ∃ v, (⟨r0, ⟨0, 1, 0⟩⟩ : Plane ℝ).meshXsections ver pk ko ⟨(createRectangularPrism diag o s).1, (createRectangularPrism diag o s).2⟩ =
        .ok [⟨v, true⟩] ∧ v.Nodup ∧ (poly v true).totalLength = .ok (2 * (s.x + s.z)) := by
  have hn : (⟨0, 1, 0⟩ : V3 ℝ) ≠ zero3 := by
    intro h
    have := congrArg V3.y h
    simp [zero3] at this
  have hv : (createRectangularPrism diag o s).1 = prismVertices o s := rfl
  have hoff : ∀ p ∈ (createRectangularPrism diag o s).1, ¬ OnPlane ⟨r0, ⟨0, 1, 0⟩⟩ p := by
    simp [hv, prismVertices, onPlane_iff, height, inner3, vec3, V3.add_y]
    refine ⟨?_, ?_⟩ <;> intro <;> linarith
  obtain ⟨v, k1, k2, -, k3⟩ := C133_prism ver pk ko ⟨r0, ⟨0, 1, 0⟩⟩ diag o s hn hoff hx (by linarith) hz
    ⟨o, by simp [hv, prismVertices], o + s, by simp [hv, prismVertices, V3.ext_iff], by
      simp only [height, inner3, vec3, V3.add_x, V3.add_y, V3.add_z]
      have : (o.y - r0.y) * (o.y + s.y - r0.y) < 0 := mul_neg_of_neg_of_pos (by linarith) (by linarith)
      linarith⟩
  refine ⟨v, k1, k2, ?_⟩
  rw [← rect_length o s r0.y hx hz]
  refine (k3 _ ⟨.inl (rect_loop o s r0.y hx hz), fun q => ?_⟩).2
  rw [rect_hull o s q _ hx hz]
  simp only [hv, FS.box_hull o s q hx (by linarith) hz, onPlane_iff, height, inner3, vec3]
  constructor
  · rintro ⟨a, b, c⟩
    exact ⟨by rw [a]; ring, b, ⟨by linarith, by linarith⟩, c⟩
  · rintro ⟨a, b, c, d⟩
    exact ⟨by linarith, b, d⟩

namespace GI
open CX

/-- the triangle a plane parallel to the base cuts out of a triangular prism -/
def tri (p1 p2 p3 s : V3 ℝ) (t : ℝ) : List (V3 ℝ) := [along p1 t s, along p2 t s, along p3 t s]

theorem tri_loop {p1 p2 p3 s : V3 ℝ} {t : ℝ} (hN : cross3 (vec3 p1 p2) (vec3 p1 p3) ≠ zero3) :
    LeftLoop (cross3 (vec3 p1 p2) (vec3 p1 p3)) (tri p1 p2 p3 s t) := by
  have g := inner_self_pos hN
  obtain ⟨N, hN'⟩ : ∃ N, N = cross3 (vec3 p1 p2) (vec3 p1 p3) := ⟨_, rfl⟩
  have d1 : det3 N (vec3 (along p1 t s) (along p2 t s)) (vec3 (along p1 t s) (along p3 t s)) = inner3 N N := by
    rw [hN']; simp only [det3, inner3, cross3, vec3, along]; ring
  have d2 : det3 N (vec3 (along p2 t s) (along p3 t s)) (vec3 (along p2 t s) (along p1 t s)) = inner3 N N := by
    rw [hN']; simp only [det3, inner3, cross3, vec3, along]; ring
  have d3 : det3 N (vec3 (along p3 t s) (along p1 t s)) (vec3 (along p3 t s) (along p2 t s)) = inner3 N N := by
    rw [hN']; simp only [det3, inner3, cross3, vec3, along]; ring
  rw [← hN'] at g ⊢
  have z : ∀ a b : V3 ℝ, det3 N (vec3 a a) (vec3 a b) = 0 ∧ det3 N (vec3 a b) (vec3 a a) = 0 ∧ det3 N (vec3 a b) (vec3 a b) = 0 := by
    intro a b
    refine ⟨?_, ?_, ?_⟩ <;> simp only [det3, inner3, cross3, vec3] <;> ring
  have n1 : along p1 t s ≠ along p2 t s := fun h => by rw [h, (z _ _).1] at d1; linarith
  have n2 : along p2 t s ≠ along p3 t s := fun h => by rw [h, (z _ _).1] at d2; linarith
  have n3 : along p1 t s ≠ along p3 t s := fun h => by rw [h, (z _ _).1] at d3; linarith
  refine ⟨by simp [tri], by simp [tri, n1, n2, n3], ?_⟩
  intro e he p hp h1 h2
  simp only [tri, cyclicPairs, List.rotate_cons_succ, List.rotate_zero, List.cons_append, List.nil_append, List.zip_cons_cons, List.zip_nil_right,
    List.mem_cons, List.not_mem_nil, or_false] at he hp
  rcases he with rfl | rfl | rfl <;> rcases hp with rfl | rfl | rfl <;>
    first
      | exact absurd rfl h1
      | exact absurd rfl h2
      | (simp only; rw [d1]; exact g)
      | (simp only; rw [d2]; exact g)
      | (simp only; rw [d3]; exact g)

theorem tri_length (p1 p2 p3 s : V3 ℝ) (t : ℝ) :
    pathLength (circuit (tri p1 p2 p3 s t) true) = dist3 p1 p2 + dist3 p2 p3 + dist3 p3 p1 := by
  have e : ∀ a b : V3 ℝ, dist3 (along a t s) (along b t s) = dist3 a b := by
    intro a b
    have : vec3 (along a t s) (along b t s) = vec3 a b := by
      ext <;> simp only [vec3, along] <;> ring
    rw [dist3, this, dist3]
  simp [tri, circuit, pathLength, pairs, e]
  ring

theorem tri_hull {p1 p2 p3 : V3 ℝ} {c t : ℝ} (hN : cross3 (vec3 p1 p2) (vec3 p1 p3) ≠ zero3) (hc : 0 < c) (t0 : 0 < t) (t1 : t < 1)
    (q : V3 ℝ) :
    InHull3 (tri p1 p2 p3 (scale3 (-c) (cross3 (vec3 p1 p2) (vec3 p1 p3))) t) q ↔
      OnPlane ⟨along p1 t (scale3 (-c) (cross3 (vec3 p1 p2) (vec3 p1 p3))), cross3 (vec3 p1 p2) (vec3 p1 p3)⟩ q ∧
        InHull3 (SolidSlice.wedge p1 p2 p3 (scale3 (-c) (cross3 (vec3 p1 p2) (vec3 p1 p3)))).v q := by
  have g := inner_self_pos hN
  obtain ⟨N, hN'⟩ : ∃ N, N = cross3 (vec3 p1 p2) (vec3 p1 p3) := ⟨_, rfl⟩
  rw [← hN'] at g ⊢
  have n2 : inner3 N (vec3 p1 p2) = 0 := by rw [hN']; simp only [inner3, cross3, vec3]; ring
  have n3 : inner3 N (vec3 p1 p3) = 0 := by rw [hN']; simp only [inner3, cross3, vec3]; ring
  obtain ⟨s, hs⟩ : ∃ s, s = scale3 (-c) N := ⟨_, rfl⟩
  have ns : inner3 N s < 0 := by
    have : inner3 N s = -c * inner3 N N := by rw [hs]; simp only [inner3, scale3]; ring
    rw [this]
    have := mul_pos hc g
    linarith
  rw [← hs]
  simp only [inner3, vec3] at n2 n3 ns
  constructor
  · intro h
    constructor
    · rw [onPlane_iff]
      have := hull_level (k := inner3 N (along p1 t s)) h (w := N) (by
        intro p hp
        simp only [tri, List.mem_cons, List.not_mem_nil, or_false] at hp
        rcases hp with rfl | rfl | rfl <;> simp only [inner3, along] <;> linarith)
      simp only [height, inner3, vec3, along] at this ⊢
      linarith
    · refine hull_trans h fun p hp => ?_
      have key : ∀ p, p ∈ (SolidSlice.wedge p1 p2 p3 s).v → p + s ∈ (SolidSlice.wedge p1 p2 p3 s).v →
          InHull3 (SolidSlice.wedge p1 p2 p3 s).v (along p t s) := by
        intro p h1 h2
        refine inHull_mix (inHull_self h1) (inHull_self h2) (a := 1 - t) (b := t) (by linarith) t0.le (by ring) ?_ ?_ ?_ <;>
          simp only [along, V3.add_x, V3.add_y, V3.add_z] <;> ring
      simp only [tri, List.mem_cons, List.not_mem_nil, or_false] at hp
      rcases hp with rfl | rfl | rfl <;> exact key _ (by simp [SolidSlice.wedge]) (by simp [SolidSlice.wedge])
  · rintro ⟨h, ws, ⟨w1, w2, w3⟩, hx, hy, hz⟩
    simp only [SolidSlice.wedge] at w1
    match ws, w1 with
    | [a, b, d, a', b', d'], _ =>
      simp only [SolidSlice.wedge, List.map_cons, List.map_nil, rdot, List.zipWith_cons_cons, List.zipWith_nil_left, List.sum_cons, List.sum_nil, V3.add_x, V3.add_y, V3.add_z] at hx hy hz w3
      simp only [List.mem_cons, List.not_mem_nil, or_false, forall_eq_or_imp, forall_eq] at w2
      obtain ⟨u1, u2, u3, u4, u5, u6⟩ := w2
      have ht : a' + b' + d' = t := by
        rw [onPlane_iff] at h
        simp only [height, inner3, vec3, along] at h
        have : (a' + b' + d' - t) * (N.x * s.x + N.y * s.y + N.z * s.z) = 0 := by
          have e1 : a = 1 - b - d - a' - b' - d' := by linarith
          rw [← hx, ← hy, ← hz, e1] at h
          linear_combination h - (b + b') * n2 - (d + d') * n3
        rcases mul_eq_zero.mp this with h | h
        · linarith
        · exact absurd h ns.ne
      refine ⟨[a + a', b + b', d + d'], ⟨rfl, ?_, ?_⟩, ?_, ?_, ?_⟩
      · simp only [List.mem_cons, List.not_mem_nil, or_false, forall_eq_or_imp, forall_eq]
        exact ⟨by linarith, by linarith, by linarith⟩
      · simp only [List.sum_cons, List.sum_nil]; linarith
      · have e1 : a = 1 - b - d - a' - b' - d' := by linarith
        simp only [tri, List.map_cons, List.map_nil, rdot, List.zipWith_cons_cons, List.zipWith_nil_left, List.sum_cons, List.sum_nil, along]; rw [← hx, ← ht, e1]; ring
      · have e1 : a = 1 - b - d - a' - b' - d' := by linarith
        simp only [tri, List.map_cons, List.map_nil, rdot, List.zipWith_cons_cons, List.zipWith_nil_left, List.sum_cons, List.sum_nil, along]; rw [← hy, ← ht, e1]; ring
      · have e1 : a = 1 - b - d - a' - b' - d' := by linarith
        simp only [tri, List.map_cons, List.map_nil, rdot, List.zipWith_cons_cons, List.zipWith_nil_left, List.sum_cons, List.sum_nil, along]; rw [← hz, ← ht, e1]; ring

end GI

/-- **C133.** A cut through a triangular prism parallel to its base is as long as the perimeter of the base. -/
theorem C133_level_tri (ver : PyVer) (pk : ℕ → Picker) (ko : ℕ → KeyOrder) (p1 p2 p3 q1 : V3 ℝ) (h t : ℝ)
    (vs : List (V3 ℝ)) (fs : List (ℕ × ℕ × ℕ)) (hr : createTriangularPrism p1 p2 p3 h = .ok (vs, fs)) (hh : 0 < h)
    (hq : vs[3]? = some q1) (t0 : 0 < t) (t1 : t < 1) :
    ∃ v, (⟨along p1 t (vec3 p1 q1), cross3 (vec3 p1 p2) (vec3 p1 p3)⟩ : Plane ℝ).meshXsections ver pk ko ⟨vs, fs⟩ = .ok [⟨v, true⟩] ∧
      v.Nodup ∧ (poly v true).totalLength = .ok (dist3 p1 p2 + dist3 p2 p3 + dist3 p3 p1) := by
  obtain ⟨c, hc, hN, hm⟩ := FS.wedge_of hr hh
  have hvs : vs = [p1, p2, p3, p1 + scale3 (-c) (cross3 (vec3 p1 p2) (vec3 p1 p3)), p2 + scale3 (-c) (cross3 (vec3 p1 p2) (vec3 p1 p3)),
    p3 + scale3 (-c) (cross3 (vec3 p1 p2) (vec3 p1 p3))] := congrArg Mesh.v hm
  have e1 : vec3 p1 q1 = scale3 (-c) (cross3 (vec3 p1 p2) (vec3 p1 p3)) := by
    rw [hvs] at hq
    simp at hq
    rw [← hq]
    ext <;> simp [vec3]
  rw [e1]
  have g := CX.inner_self_pos hN
  have hcg := mul_pos hc g
  have n2 : inner3 (cross3 (vec3 p1 p2) (vec3 p1 p3)) (vec3 p1 p2) = 0 := by simp only [inner3, cross3, vec3]; ring
  have n3 : inner3 (cross3 (vec3 p1 p2) (vec3 p1 p3)) (vec3 p1 p3) = 0 := by simp only [inner3, cross3, vec3]; ring
  have lo : ∀ p, inner3 (cross3 (vec3 p1 p2) (vec3 p1 p3)) (vec3 p1 p) = 0 →
      height ⟨along p1 t (scale3 (-c) (cross3 (vec3 p1 p2) (vec3 p1 p3))), cross3 (vec3 p1 p2) (vec3 p1 p3)⟩ p =
        t * (c * inner3 (cross3 (vec3 p1 p2) (vec3 p1 p3)) (cross3 (vec3 p1 p2) (vec3 p1 p3))) := by
    intro p hp
    simp only [height]
    generalize cross3 (vec3 p1 p2) (vec3 p1 p3) = N at *
    simp only [inner3, vec3, along, scale3] at hp ⊢
    linear_combination hp
  have hi : ∀ p, inner3 (cross3 (vec3 p1 p2) (vec3 p1 p3)) (vec3 p1 p) = 0 →
      height ⟨along p1 t (scale3 (-c) (cross3 (vec3 p1 p2) (vec3 p1 p3))), cross3 (vec3 p1 p2) (vec3 p1 p3)⟩
        (p + scale3 (-c) (cross3 (vec3 p1 p2) (vec3 p1 p3))) =
        -((1 - t) * (c * inner3 (cross3 (vec3 p1 p2) (vec3 p1 p3)) (cross3 (vec3 p1 p2) (vec3 p1 p3)))) := by
    intro p hp
    simp only [height]
    generalize cross3 (vec3 p1 p2) (vec3 p1 p3) = N at *
    simp only [inner3, vec3, along, scale3, V3.add_x, V3.add_y, V3.add_z] at hp ⊢
    linear_combination hp
  have n1 : inner3 (cross3 (vec3 p1 p2) (vec3 p1 p3)) (vec3 p1 p1) = 0 := by simp only [inner3, cross3, vec3]; ring
  have a1 := mul_pos t0 hcg
  have a2 := mul_pos (sub_pos.mpr t1) hcg
  have hoff : ∀ p ∈ vs, ¬ OnPlane ⟨along p1 t (scale3 (-c) (cross3 (vec3 p1 p2) (vec3 p1 p3))), cross3 (vec3 p1 p2) (vec3 p1 p3)⟩ p := by
    intro p hp
    rw [hvs] at hp
    simp only [List.mem_cons, List.not_mem_nil, or_false] at hp
    rw [onPlane_iff]
    rcases hp with rfl | rfl | rfl | rfl | rfl | rfl
    · rw [lo _ n1]; exact a1.ne'
    · rw [lo _ n2]; exact a1.ne'
    · rw [lo _ n3]; exact a1.ne'
    · rw [hi _ n1]; exact (neg_neg_of_pos a2).ne
    · rw [hi _ n2]; exact (neg_neg_of_pos a2).ne
    · rw [hi _ n3]; exact (neg_neg_of_pos a2).ne
  obtain ⟨v, k1, k2, -, k3⟩ := C133_tri ver pk ko _ p1 p2 p3 h hN vs fs hr hh hoff
    ⟨p1, by rw [hvs]; simp, p1 + scale3 (-c) (cross3 (vec3 p1 p2) (vec3 p1 p3)), by rw [hvs]; simp, by
      rw [lo _ n1, hi _ n1]
      exact mul_neg_of_pos_of_neg a1 (neg_neg_of_pos a2)⟩
  refine ⟨v, k1, k2, ?_⟩
  rw [← tri_length p1 p2 p3 (scale3 (-c) (cross3 (vec3 p1 p2) (vec3 p1 p3))) t]
  refine (k3 _ ⟨.inl (tri_loop hN), fun q => ?_⟩).2
  rw [tri_hull hN hc t0 t1 q, ← hm]

/-- **C133**, used: half way up the unit cube the section has length 4; the cube satisfies all that `C133_length` asks for. -/
theorem C133_witness (ver : PyVer) (pk : ℕ → Picker) (ko : ℕ → KeyOrder) (diag : ℕ → Bool) :
    CrossingsApart hexPlane ⟨(createCube diag (⟨0, 0, 0⟩ : V3 ℝ) 1).1, (createCube diag (⟨0, 0, 0⟩ : V3 ℝ) 1).2⟩ ∧
    (∃ v, (⟨⟨0, 1 / 2, 0⟩, ⟨0, 1, 0⟩⟩ : Plane ℝ).meshXsections ver pk ko
        ⟨(createCube diag (⟨0, 0, 0⟩ : V3 ℝ) 1).1, (createCube diag (⟨0, 0, 0⟩ : V3 ℝ) 1).2⟩ = .ok [⟨v, true⟩] ∧ v.Nodup ∧
      (poly v true).totalLength = .ok 4) ∧
    ∃ v R, hexPlane.meshXsections ver pk ko ⟨(createCube diag ⟨0, 0, 0⟩ 1).1, (createCube diag (⟨0, 0, 0⟩ : V3 ℝ) 1).2⟩ = .ok [⟨v, true⟩] ∧
      Outline hexPlane ⟨(createCube diag ⟨0, 0, 0⟩ 1).1, (createCube diag (⟨0, 0, 0⟩ : V3 ℝ) 1).2⟩ R ∧
      (poly v true).totalLength = .ok (pathLength (circuit R true)) := by
  refine ⟨box_apart _ diag _ _ one_pos one_pos one_pos, ?_, ?_⟩
  · obtain ⟨v, h1, h2, h3⟩ := C133_level ver pk ko ⟨0, 1 / 2, 0⟩ diag ⟨0, 0, 0⟩ ⟨1, 1, 1⟩ one_pos one_pos (by norm_num) (by norm_num)
    refine ⟨v, h1, h2, ?_⟩
    rw [h3]
    norm_num
  · obtain ⟨hn, hoff, -⟩ := C132_witness ver pk ko diag
    obtain ⟨v, h1, -, ⟨R, hR⟩, h3⟩ := C133_prism ver pk ko hexPlane diag ⟨0, 0, 0⟩ ⟨1, 1, 1⟩ hn hoff one_pos one_pos one_pos
      ⟨⟨0, 0, 0⟩, by simp [createRectangularPrism, prismVertices], ⟨1, 1, 1⟩,
        by simp [createRectangularPrism, prismVertices, V3.ext_iff], by norm_num [hexPlane, height, inner3, vec3]⟩
    exact ⟨v, R, h1, hR, (h3 R hR).2⟩

end Blmath.Props
