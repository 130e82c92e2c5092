import Verif.Props.ConvexMeets

/-!
Property C136: of two convex solids, one in the other, the inner one has the shorter sections.
-/

namespace Blmath.Props
open Blmath.Geometry Blmath.Spec Blmath.Proofs

namespace GO
open CX Blmath.TM

theorem along_eq (a b : V3 ℝ) (t : ℝ) : along a t (vec3 a b) = TM.at' a b t := by
  ext <;> simp only [along, vec3, TM.at'] <;> ring

theorem inner_self_nonneg (v : V3 ℝ) : 0 ≤ inner3 v v := by
  rw [← len3_mul_self]; exact mul_self_nonneg _

/-- the nearest point of a convex set -/
theorem nearest {l : List (V3 ℝ)} (hl : l ≠ []) (x : V3 ℝ) :
    ∃ v, InHull3 l v ∧ ∀ w, InHull3 l w → inner3 (vec3 v x) (vec3 v w) ≤ 0 := by
  have hfin : (pts l).Finite := by
    have : pts l ⊆ Set.range (fun i : Fin l.length => co l[i]) := by
      rintro _ ⟨p, hp, rfl⟩
      obtain ⟨i, hi, rfl⟩ := List.mem_iff_getElem.mp hp
      exact ⟨⟨i, hi⟩, rfl⟩
    exact (Set.finite_range _).subset this
  have hne : (convexHull ℝ (pts l)).Nonempty := by
    obtain ⟨p, hp⟩ := List.exists_mem_of_ne_nil _ hl
    exact ⟨co p, subset_convexHull ℝ _ ⟨p, hp, rfl⟩⟩
  have hcont : Continuous fun c : ℝ × ℝ × ℝ => (c.1 - x.x) ^ 2 + (c.2.1 - x.y) ^ 2 + (c.2.2 - x.z) ^ 2 := by fun_prop
  obtain ⟨c, hc, hmin⟩ := (hfin.isCompact_convexHull (𝕜 := ℝ)).exists_isMinOn hne hcont.continuousOn
  have hc' : InHull3 l ⟨c.1, c.2.1, c.2.2⟩ := (inHull_iff l ⟨c.1, c.2.1, c.2.2⟩).mpr hc
  refine ⟨⟨c.1, c.2.1, c.2.2⟩, hc', fun w hw => ?_⟩
  obtain ⟨D, hD⟩ : ∃ D, D = inner3 (vec3 ⟨c.1, c.2.1, c.2.2⟩ x) (vec3 ⟨c.1, c.2.1, c.2.2⟩ w) := ⟨_, rfl⟩
  obtain ⟨N, hN⟩ : ∃ N, N = inner3 (vec3 ⟨c.1, c.2.1, c.2.2⟩ w) (vec3 ⟨c.1, c.2.1, c.2.2⟩ w) := ⟨_, rfl⟩
  have hN0 : 0 ≤ N := by rw [hN]; exact inner_self_nonneg _
  have key : ∀ t : ℝ, 0 ≤ t → t ≤ 1 → 2 * t * D ≤ t * t * N := by
    intro t t0 t1
    have hm : InHull3 l (along ⟨c.1, c.2.1, c.2.2⟩ t (vec3 ⟨c.1, c.2.1, c.2.2⟩ w)) := by
      refine inHull_mix hc' hw (a := 1 - t) (b := t) (by linarith) t0 (by ring) ?_ ?_ ?_ <;>
        simp only [along, vec3] <;> ring
    have := hmin ((inHull_iff _ _).mp hm)
    simp only [Set.mem_ofPred_eq, co, along, vec3] at this
    rw [hD, hN]
    simp only [inner3, vec3]
    nlinarith [this]
  rw [← hD]
  by_contra hpos
  push Not at hpos
  have h1 := key (min 1 (D / (N + 1))) (by positivity) (min_le_left _ _)
  have t0 : 0 < min 1 (D / (N + 1)) := by positivity
  have t1 : min 1 (D / (N + 1)) * (N + 1) ≤ D := by
    have := min_le_right 1 (D / (N + 1))
    calc _ ≤ D / (N + 1) * (N + 1) := mul_le_mul_of_nonneg_right this (by linarith)
      _ = D := div_mul_cancel₀ _ (by linarith)
  generalize min 1 (D / (N + 1)) = t at *
  have h2 : 2 * D ≤ t * N := by
    have : t * (2 * D) ≤ t * (t * N) := by linarith
    exact le_of_mul_le_mul_left this t0
  nlinarith

/-- going to the nearest point shortens no distance the wrong way -/
theorem nearest_dist {l : List (V3 ℝ)} {x y v w : V3 ℝ} (hv : InHull3 l v) (hw : InHull3 l w)
    (h1 : ∀ z, InHull3 l z → inner3 (vec3 v x) (vec3 v z) ≤ 0) (h2 : ∀ z, InHull3 l z → inner3 (vec3 w y) (vec3 w z) ≤ 0) :
    dist3 v w ≤ dist3 x y := by
  have a := h1 w hw
  have b := h2 v hv
  have c : inner3 (vec3 v w) (vec3 v w) ≤ inner3 (vec3 x y) (vec3 v w) := by
    simp only [inner3, vec3] at a b ⊢; linarith
  have d : inner3 (vec3 v w) (vec3 v w) ≤ inner3 (vec3 x y) (vec3 x y) := by
    have : 0 ≤ inner3 (vec3 (vec3 v w) (vec3 x y)) (vec3 (vec3 v w) (vec3 x y)) := inner_self_nonneg _
    simp only [inner3, vec3] at a b c this ⊢; linarith
  unfold dist3
  rw [← len3_mul_self, ← len3_mul_self] at d
  exact abs_le_of_sq_le_sq' (by nlinarith) (len3_nonneg _) |>.2

theorem walk_map {f : V3 ℝ → V3 ℝ} (hf : ∀ x y, dist3 (f x) (f y) ≤ dist3 x y) (l : List (V3 ℝ)) :
    ∀ a z, walk (f a) (l.map f) (f z) ≤ walk a l z := by
  induction l with
  | nil => intro a z; exact hf a z
  | cons b l ih => intro a z; exact add_le_add (hf a b) (ih b z)

theorem tour_map {f : V3 ℝ → V3 ℝ} (hf : ∀ x y, dist3 (f x) (f y) ≤ dist3 x y) (l : List (V3 ℝ)) : tour (l.map f) ≤ tour l := by
  cases l with
  | nil => exact le_rfl
  | cons a l => exact walk_map hf l a a

/-- a segment in two parts -/
theorem parts {a y b c : V3 ℝ} (hb : OnSegment a y b) (hc : OnSegment a y c) : OnSegment a b c ∨ OnSegment b y c := by
  obtain ⟨s, s0, s1, rfl⟩ := hb
  obtain ⟨r, r0, r1, rfl⟩ := hc
  rcases le_or_gt r s with h | h
  · left
    rcases eq_or_lt_of_le s0 with h0 | h0
    · have : r = 0 := by linarith
      refine ⟨0, le_rfl, zero_le_one, ?_⟩
      rw [this]; ext <;> simp [along]
    · refine ⟨r / s, by positivity, (div_le_one h0).mpr h, ?_⟩
      obtain ⟨q, hq⟩ : ∃ q, q = r / s := ⟨_, rfl⟩
      have : r = q * s := by rw [hq]; field_simp
      rw [← hq, this]
      ext <;> simp only [along, vec3] <;> ring
  · right
    have h1 : 0 < 1 - s := by linarith
    refine ⟨(r - s) / (1 - s), div_nonneg (by linarith) h1.le, (div_le_one h1).mpr (by linarith), ?_⟩
    obtain ⟨q, hq⟩ : ∃ q, q = (r - s) / (1 - s) := ⟨_, rfl⟩
    have : r = q * (1 - s) + s := by rw [hq]; field_simp; ring
    rw [← hq, this]
    ext <;> simp only [along, vec3] <;> ring

theorem seg_dist {a y b : V3 ℝ} (hb : OnSegment a y b) : dist3 a b + dist3 b y = dist3 a y := by
  obtain ⟨s, s0, s1, rfl⟩ := hb
  rw [along_eq]
  have h0 := dist_at a y 0 s
  have h1 := dist_at a y s 1
  rw [at_zero, sub_zero, abs_of_nonneg s0] at h0
  have e1 : TM.at' a y 1 = y := by ext <;> simp [TM.at']
  rw [e1, abs_of_nonneg (by linarith)] at h1
  rw [h0, h1]; ring

/-- a point on the way can be made a stop -/
theorem stop {b : V3 ℝ} : ∀ (l : List (V3 ℝ)) (a z : V3 ℝ), (∃ e ∈ (a :: l).zip (l ++ [z]), OnSegment e.1 e.2 b) →
    ∃ l', walk a l' z = walk a l z ∧ b ∈ l' ∧ (∀ p ∈ l, p ∈ l') ∧
      ∀ c, (∃ e ∈ (a :: l).zip (l ++ [z]), OnSegment e.1 e.2 c) → ∃ e ∈ (a :: l').zip (l' ++ [z]), OnSegment e.1 e.2 c := by
  intro l
  induction l with
  | nil =>
    rintro a z ⟨e, he, hb⟩
    have he : e = (a, z) := by simpa using he
    subst he
    refine ⟨[b], seg_dist hb, by simp, by simp, ?_⟩
    rintro c ⟨e, he, hc⟩
    have he : e = (a, z) := by simpa using he
    subst he
    rcases parts hb hc with h | h
    · exact ⟨(a, b), by simp, h⟩
    · exact ⟨(b, z), by simp, h⟩
  | cons y l ih =>
    rintro a z ⟨e, he, hb⟩
    have hz : (a :: y :: l).zip (y :: l ++ [z]) = (a, y) :: (y :: l).zip (l ++ [z]) := rfl
    rw [hz] at he ⊢
    rcases List.mem_cons.mp he with rfl | he
    · refine ⟨b :: y :: l, ?_, by simp, fun p hp => by simp at hp ⊢; tauto, ?_⟩
      · show dist3 a b + (dist3 b y + walk y l z) = dist3 a y + walk y l z
        rw [← seg_dist hb]; ring
      · rintro c ⟨e, he, hc⟩
        have hz' : (a :: b :: y :: l).zip (b :: y :: l ++ [z]) = (a, b) :: (b, y) :: (y :: l).zip (l ++ [z]) := rfl
        rw [hz']
        rcases List.mem_cons.mp he with rfl | he
        · rcases parts hb hc with h | h
          · exact ⟨(a, b), by simp, h⟩
          · exact ⟨(b, y), by simp, h⟩
        · exact ⟨e, by simp [he], hc⟩
    · obtain ⟨l', h1, h2, h3, h4⟩ := ih y z ⟨e, he, hb⟩
      refine ⟨y :: l', ?_, by simp [h2], ?_, ?_⟩
      · show dist3 a y + walk y l' z = dist3 a y + walk y l z
        rw [h1]
      · intro p hp
        rcases List.mem_cons.mp hp with rfl | hp
        · simp
        · simp [h3 p hp]
      · rintro c ⟨e, he, hc⟩
        have hz' : (a :: y :: l').zip (y :: l' ++ [z]) = (a, y) :: (y :: l').zip (l' ++ [z]) := rfl
        rw [hz']
        rcases List.mem_cons.mp he with rfl | he
        · exact ⟨(a, y), by simp, hc⟩
        · obtain ⟨e, he, hc⟩ := h4 c ⟨e, he, hc⟩
          exact ⟨e, by simp [he], hc⟩

/-- all of some points on the way can be made stops -/
theorem stops (a z : V3 ℝ) (l : List (V3 ℝ)) : ∀ bs : List (V3 ℝ), (∀ b ∈ bs, ∃ e ∈ (a :: l).zip (l ++ [z]), OnSegment e.1 e.2 b) →
    ∃ l', walk a l' z = walk a l z ∧ (∀ b ∈ bs, b ∈ l') ∧
      ∀ c, (∃ e ∈ (a :: l).zip (l ++ [z]), OnSegment e.1 e.2 c) → ∃ e ∈ (a :: l').zip (l' ++ [z]), OnSegment e.1 e.2 c := by
  intro bs
  induction bs with
  | nil => intro _; exact ⟨l, rfl, by simp, fun c h => h⟩
  | cons b bs ih =>
    intro h
    obtain ⟨l', h1, h2, h3⟩ := ih fun c hc => h c (by simp [hc])
    obtain ⟨l'', k1, k2, k3, k4⟩ := stop l' a z (h3 b (h b (by simp)))
    refine ⟨l'', k1.trans h1, fun c hc => ?_, fun c hc => k4 c (h3 c hc)⟩
    rcases List.mem_cons.mp hc with rfl | hc
    · exact k2
    · exact k3 c (h2 c hc)

/-- the first of finitely many falling quantities to vanish -/
theorem first_zero (s0 : ℝ) (h0 : 0 ≤ s0) : ∀ L : List (ℝ × ℝ), (∀ g ∈ L, 0 ≤ g.1) → (∃ g ∈ L, g.1 + g.2 * s0 < 0) →
    ∃ s, 0 ≤ s ∧ s ≤ s0 ∧ (∀ g ∈ L, 0 ≤ g.1 + g.2 * s) ∧ ∃ g ∈ L, g.1 + g.2 * s = 0 := by
  intro L
  induction L with
  | nil => rintro - ⟨g, hg, -⟩; simp at hg
  | cons g L ih =>
    intro hpos hneg
    have root : ∀ s, 0 ≤ s → g.1 + g.2 * s < 0 → ∃ s', 0 ≤ s' ∧ s' ≤ s ∧ g.1 + g.2 * s' = 0 := by
      intro s hs hlt
      have g1 := hpos g (by simp)
      have g2 : g.2 < 0 := by
        by_contra h
        push Not at h
        nlinarith [mul_nonneg h hs]
      refine ⟨g.1 / -g.2, div_nonneg g1 (by linarith), ?_, ?_⟩
      · rw [div_le_iff₀ (by linarith)]; linarith
      · have := g2.ne
        field_simp
        ring
    have mid : ∀ h : ℝ × ℝ, 0 ≤ h.1 → ∀ s s', 0 ≤ s' → s' ≤ s → 0 ≤ h.1 + h.2 * s → 0 ≤ h.1 + h.2 * s' := by
      intro h h1 s s' a b c
      rcases le_or_gt 0 h.2 with h2 | h2
      · have := mul_nonneg h2 a; linarith
      · have := mul_le_mul_of_nonpos_left b h2.le; linarith
    by_cases hL : ∃ h ∈ L, h.1 + h.2 * s0 < 0
    · obtain ⟨s, a, b, c, h, hh, hz⟩ := ih (fun h hh => hpos h (by simp [hh])) hL
      rcases le_or_gt 0 (g.1 + g.2 * s) with hg | hg
      · refine ⟨s, a, b, fun h hh => ?_, h, by simp [hh], hz⟩
        rcases List.mem_cons.mp hh with rfl | hh
        · exact hg
        · exact c h hh
      · obtain ⟨s', a', b', c'⟩ := root s a hg
        refine ⟨s', a', b'.trans b, fun h hh => ?_, g, by simp, c'⟩
        rcases List.mem_cons.mp hh with rfl | hh
        · exact c'.ge
        · exact mid h (hpos h (by simp [hh])) s s' a' b' (c h hh)
    · push Not at hL
      obtain ⟨h, hh, hlt⟩ := hneg
      rcases List.mem_cons.mp hh with rfl | hh
      · obtain ⟨s', a', b', c'⟩ := root s0 h0 hlt
        refine ⟨s', a', b', fun h hh => ?_, _, by simp, c'⟩
        rcases List.mem_cons.mp hh with rfl | hh
        · exact c'.ge
        · exact mid h (hpos h (by simp [hh])) s0 s' a' b' (hL h hh)
      · exact absurd hlt (not_lt.mpr (hL h hh))

/-- a large multiple makes up for any difference -/
theorem large {l : List (V3 ℝ)} {f g : V3 ℝ → ℝ} (h : ∀ p ∈ l, 0 < f p ∨ (f p = 0 ∧ g p < 0)) :
    ∃ M, ∀ p ∈ l, g p - M * f p < 0 := by
  suffices ∃ M0, ∀ M, M0 ≤ M → ∀ p ∈ l, g p - M * f p < 0 from this.imp fun M h => h M le_rfl
  induction l with
  | nil => exact ⟨0, by simp⟩
  | cons a l ih =>
    obtain ⟨M0, hM⟩ := ih fun p hp => h p (by simp [hp])
    refine ⟨max M0 (g a / f a + 1), fun M hle p hp => ?_⟩
    rcases List.mem_cons.mp hp with rfl | hp
    · rcases h p (by simp) with hf | ⟨hf, hg⟩
      · have : g p / f p + 1 ≤ M := (le_max_right _ _).trans hle
        have h2 : (g p / f p + 1) * f p ≤ M * f p := mul_le_mul_of_nonneg_right this hf.le
        have h3 : (g p / f p + 1) * f p = g p + f p := by field_simp
        linarith
      · rw [hf]; linarith
    · exact hM M ((le_max_left _ _).trans hle) p hp

theorem turn_inner (n a b c : V3 ℝ) : TM.turn n a b c = inner3 (cross3 n (vec3 a b)) (vec3 a c) := by
  simp only [TM.turn, det3, inner3, cross3]

/-- a point of a convex polygon in line with a side is on that side -/
theorem on_side {n q : V3 ℝ} {R : List (V3 ℝ)} (h : LeftLoop n R) {e : V3 ℝ × V3 ℝ} (he : e ∈ cyclicPairs R) (hq : InHull3 R q)
    (h0 : TM.turn n e.1 e.2 q = 0) : OnSegment e.1 e.2 q := by
  have h2 : InHull3 [e.1, e.2] q := by
    by_contra hc
    obtain ⟨w, hw⟩ := FS.separate hc
    obtain ⟨M, hM⟩ := large (l := R) (f := fun p => TM.turn n e.1 e.2 p) (g := fun p => inner3 w p - inner3 w q) (fun p hp => by
      by_cases h1 : p = e.1
      · right
        refine ⟨by rw [h1]; simp only [TM.turn, det3, inner3, cross3, vec3]; ring, ?_⟩
        have := hw p (by simp [h1]); linarith
      by_cases h2 : p = e.2
      · right
        refine ⟨by rw [h2]; simp only [TM.turn, det3, inner3, cross3, vec3]; ring, ?_⟩
        have := hw p (by simp [h2]); linarith
      · exact .inl (h.left e he p hp h1 h2))
    have hlin : ∀ p, inner3 (vec3 (scale3 M (cross3 n (vec3 e.1 e.2))) w) p = inner3 w p - M * TM.turn n e.1 e.2 p - M * inner3 (cross3 n (vec3 e.1 e.2)) e.1 := by
      intro p
      rw [turn_inner, FS.inner_split]
      simp only [inner3, vec3, scale3]; ring
    have := IS.hull_lt (w := vec3 (scale3 M (cross3 n (vec3 e.1 e.2))) w)
      (k := inner3 w q - M * inner3 (cross3 n (vec3 e.1 e.2)) e.1) hq (fun p hp => by
        rw [hlin]
        have := hM p hp
        linarith)
    rw [hlin, h0] at this
    linarith
  obtain ⟨ws, ⟨h1, h2, h3⟩, hx, hy, hz⟩ := h2
  match ws, h1 with
  | [s, t], _ =>
    have hs := h2 s (by simp)
    have ht := h2 t (by simp)
    simp only [List.sum_cons, List.sum_nil, add_zero] at h3
    simp only [rdot, List.map_cons, List.map_nil, List.zipWith_cons_cons, List.zipWith_nil_left, List.sum_cons, List.sum_nil, add_zero] at hx hy hz
    refine ⟨t, ht, by linarith, ?_⟩
    have : s = 1 - t := by linarith
    subst this
    ext <;> simp only [along, vec3] <;> linarith

/-- from a point of a convex polygon one gets out of it through a side -/
theorem way_out {n a d : V3 ℝ} {k : ℝ} {R : List (V3 ℝ)} (hn : n ≠ zero3) (h : LeftLoop n R) (hpl : ∀ p ∈ R, inner3 n p = k)
    (ha : InHull3 R a) (hd : d ≠ zero3) (hnd : inner3 n d = 0) :
    ∃ s, 0 ≤ s ∧ ∃ e ∈ cyclicPairs R, OnSegment e.1 e.2 (along a s d) := by
  have hak := hull_level ha hpl
  have hturn : ∀ (e : V3 ℝ × V3 ℝ) s, TM.turn n e.1 e.2 (along a s d) = TM.turn n e.1 e.2 a + inner3 (cross3 n (vec3 e.1 e.2)) d * s := by
    intro e s
    simp only [TM.turn, det3, inner3, cross3, vec3, along]; ring
  have hlev : ∀ s, inner3 n (along a s d) = k := by
    intro s
    rw [← hak]
    simp only [inner3, along] at hnd ⊢
    linear_combination s * hnd
  have hleft : ∀ e ∈ cyclicPairs R, ∀ q, InHull3 R q → 0 ≤ TM.turn n e.1 e.2 q := by
    intro e he q hq
    have := hull_bound (w := scale3 (-1) (cross3 n (vec3 e.1 e.2))) (k := -inner3 (cross3 n (vec3 e.1 e.2)) e.1) hq (fun p hp => by
      have := LeftLoop.round h e he p hp
      rw [turn_inner, FS.inner_split] at this
      rw [TM.inner_neg]; linarith)
    rw [TM.inner_neg] at this
    rw [turn_inner, FS.inner_split]; linarith
  -- far away the ray has left
  obtain ⟨s0, hs0, hout⟩ : ∃ s0, 0 ≤ s0 ∧ ¬ InHull3 R (along a s0 d) := by
    obtain ⟨M, hM⟩ : ∃ M, ∀ p ∈ R, inner3 d p ≤ M := by
      clear h hpl ha hak hleft
      induction R with
      | nil => exact ⟨0, by simp⟩
      | cons x R ih =>
        obtain ⟨M, hM⟩ := ih
        refine ⟨max M (inner3 d x), fun p hp => ?_⟩
        rcases List.mem_cons.mp hp with rfl | hp
        · exact le_max_right _ _
        · exact (hM p hp).trans (le_max_left _ _)
    have hdd := inner_self_pos hd
    have haM := hull_bound ha hM
    refine ⟨(M - inner3 d a) / inner3 d d + 1, by have := div_nonneg (sub_nonneg.mpr haM) hdd.le; linarith, fun hc => ?_⟩
    have := hull_bound hc hM
    have e : inner3 d (along a ((M - inner3 d a) / inner3 d d + 1) d) = inner3 d a + ((M - inner3 d a) / inner3 d d + 1) * inner3 d d := by
      generalize (M - inner3 d a) / inner3 d d + 1 = s
      simp only [inner3, along]; ring
    rw [e, add_mul, div_mul_cancel₀ _ hdd.ne'] at this
    linarith
  obtain ⟨s, s1, -, hall, g, hg, hz⟩ := first_zero s0 hs0
    ((cyclicPairs R).map fun e => (TM.turn n e.1 e.2 a, inner3 (cross3 n (vec3 e.1 e.2)) d))
    (fun g hg => by
      obtain ⟨e, he, rfl⟩ := List.mem_map.mp hg
      exact hleft e he a ha)
    (by
      by_contra hc
      push Not at hc
      apply hout
      refine LeftLoop.solid hn h hpl (hlev s0) fun e he => ?_
      have := hc _ (List.mem_map.mpr ⟨e, he, rfl⟩)
      rw [hturn]; exact this)
  obtain ⟨e, he, rfl⟩ := List.mem_map.mp hg
  refine ⟨s, s1, e, he, on_side h he (LeftLoop.solid hn h hpl (hlev s) fun e he => ?_) ?_⟩
  · rw [hturn]; exact hall _ (List.mem_map.mpr ⟨e, he, rfl⟩)
  · rw [hturn]; exact hz

/-- of two convex polygons in a plane, one in the other, the inner one is shorter -/
theorem shorter {n n' : V3 ℝ} {k k' : ℝ} {Q R : List (V3 ℝ)} (hn : n ≠ zero3) (hn' : n' ≠ zero3) (hQ : LeftLoop n Q) (hR : LeftLoop n' R)
    (lQ : ∀ q ∈ Q, inner3 n q = k) (lR : ∀ q ∈ R, inner3 n' q = k') (hnn : ∀ d, inner3 n d = 0 → inner3 n' d = 0)
    (hin : ∀ q ∈ Q, InHull3 R q) : tour Q ≤ tour R := by
  have hQ0 : Q ≠ [] := by
    have := hQ.size
    rintro rfl
    simp at this
  choose f hf1 hf2 using nearest (l := Q) hQ0
  have lip : ∀ x y, dist3 (f x) (f y) ≤ dist3 x y := fun x y => nearest_dist (hf1 x) (hf1 y) (hf2 x) (hf2 y)
  -- for every corner a point of the outer polygon nearest to it
  have pre : ∀ a ∈ Q, ∃ b, f b = a ∧ ∃ e ∈ cyclicPairs R, OnSegment e.1 e.2 b := by
    intro a ha
    obtain ⟨i, hi, hia⟩ := List.mem_iff_getElem.mp ha
    have hia' : Q[i]? = some a := by rw [List.getElem?_eq_getElem hi, hia]
    obtain ⟨c, hc⟩ : ∃ c, Q[(i + 1) % Q.length]? = some c := ⟨_, List.getElem?_eq_getElem (Nat.mod_lt _ (by omega))⟩
    have he : (a, c) ∈ cyclicPairs Q := cyclic_mem hia' hc
    have hne : a ≠ c := by
      rintro rfl
      have h3 := hQ.size
      have h1 := (List.getElem?_eq_some_iff.mp hc)
      obtain ⟨h1, h2⟩ := h1
      have := (List.Nodup.getElem_inj_iff hQ.nodup).mp (h2.trans hia.symm)
      rcases Nat.lt_or_ge (i + 1) Q.length with h | h
      · rw [Nat.mod_eq_of_lt h] at this; omega
      · have h4 : i + 1 = Q.length := by omega
        have h5 : (i + 1) % Q.length = 0 := by rw [h4]; exact Nat.mod_self _
        omega
    have hlev : inner3 n (vec3 a c) = 0 := by
      rw [FS.inner_split, lQ a ha, lQ c (List.mem_of_getElem? hc)]; ring
    obtain ⟨d, hd⟩ : ∃ d, d = scale3 (-1) (cross3 n (vec3 a c)) := ⟨_, rfl⟩
    have hd0 : d ≠ zero3 := by
      rw [hd]
      apply TM.neg_ne
      intro h0
      have h1 : inner3 (cross3 n (vec3 a c)) (cross3 n (vec3 a c)) = 0 := by rw [h0]; simp [inner3, zero3]
      have h2 : inner3 (cross3 n (vec3 a c)) (cross3 n (vec3 a c)) = inner3 n n * inner3 (vec3 a c) (vec3 a c) := by
        have : inner3 (cross3 n (vec3 a c)) (cross3 n (vec3 a c)) = inner3 n n * inner3 (vec3 a c) (vec3 a c) - inner3 n (vec3 a c) * inner3 n (vec3 a c) := by
          simp only [inner3, cross3]; ring
        rw [this, hlev]; ring
      have := mul_pos (inner_self_pos hn) (inner_self_pos (vec_ne hne))
      linarith
    have hnd : inner3 n d = 0 := by rw [hd]; simp only [inner3, cross3, scale3]; ring
    obtain ⟨s, s0, e, hee, hon⟩ := way_out hn' hR lR (hin a ha) hd0 (hnn d hnd)
    refine ⟨along a s d, ?_, e, hee, hon⟩
    have v1 := hf1 (along a s d)
    have v2 := hf2 (along a s d) a (inHull_self ha)
    have v3 : inner3 d (f (along a s d)) ≤ inner3 d a := hull_bound v1 fun p hp => by
      have := LeftLoop.round hQ _ he p hp
      simp only [turn_inner] at this
      rw [FS.inner_split] at this
      rw [hd, TM.inner_neg, TM.inner_neg]; linarith
    generalize f (along a s d) = v at *
    by_contra hne
    have hp := inner_self_pos (vec_ne hne)
    have v4 : s * inner3 d v ≤ s * inner3 d a := mul_le_mul_of_nonneg_left v3 s0
    simp only [inner3, vec3, along] at hp v2 v4
    nlinarith
  choose! g hg1 hg2 using pre
  match R, hR with
  | [], hR => exact absurd hR.size (by simp)
  | r :: R, hR =>
    rw [cyclicPairs_cons] at hg2
    obtain ⟨l', h1, h2, -⟩ := stops r r R (Q.map g) (fun b hb => by
      obtain ⟨a, ha, rfl⟩ := List.mem_map.mp hb
      exact hg2 a ha)
    have hsub : ∀ q ∈ Q, q ∈ (r :: l').map f := fun q hq =>
      List.mem_map.mpr ⟨g q, List.mem_cons_of_mem _ (h2 _ (List.mem_map_of_mem hq)), hg1 q hq⟩
    calc tour Q ≤ tour ((r :: l').map f) := TM.hull_le hn lQ (fun _ h => h) (ConvexLoop.isHull (.inl hQ)) hsub
      _ ≤ tour (r :: l') := tour_map lip _
      _ = tour (r :: R) := h1

/-- the same, whichever way round they run -/
theorem nested {n : V3 ℝ} {c : ℝ} {Q R : List (V3 ℝ)} (hn : n ≠ zero3) (hQ : ConvexLoop n Q) (hR : ConvexLoop n R)
    (lQ : ∀ q ∈ Q, inner3 n q = c) (lR : ∀ q ∈ R, inner3 n q = c) (hin : ∀ q ∈ Q, InHull3 R q) : tour Q ≤ tour R := by
  have lQ' : ∀ q ∈ Q, inner3 (scale3 (-1) n) q = -c := fun q hq => by rw [TM.inner_neg, lQ q hq]
  have lR' : ∀ q ∈ R, inner3 (scale3 (-1) n) q = -c := fun q hq => by rw [TM.inner_neg, lR q hq]
  have hn' := TM.neg_ne hn
  rcases hQ with hQ | hQ <;> rcases hR with hR | hR
  · exact shorter hn hn hQ hR lQ lR (fun _ h => h) hin
  · exact shorter hn hn' hQ hR lQ lR' (fun _ h => by rw [TM.inner_neg, h, neg_zero]) hin
  · exact shorter hn' hn hQ hR lQ' lR (fun _ h => by rw [TM.inner_neg] at h; linarith) hin
  · exact shorter hn' hn' hQ hR lQ' lR' (fun _ h => h) hin

theorem outline_on {pl : Plane ℝ} {m : Mesh ℝ} {R : List (V3 ℝ)} (h : Outline pl m R) : ∀ q ∈ R, inner3 pl.n q = inner3 pl.n pl.r0 :=
  fun q hq => inner_of_onPlane ((h.2 q).mp (inHull_self hq)).1

theorem outlines {pl : Plane ℝ} {m m' : Mesh ℝ} {R R' : List (V3 ℝ)} (hn : pl.n ≠ zero3) (h : Outline pl m R) (h' : Outline pl m' R')
    (hin : ∀ p ∈ m.v, InHull3 m'.v p) : pathLength (circuit R true) ≤ pathLength (circuit R' true) := by
  rw [tour_eq, tour_eq]
  refine nested hn h.1 h'.1 (outline_on h) (outline_on h') fun q hq => ?_
  obtain ⟨a, b⟩ := (h.2 q).mp (inHull_self hq)
  exact (h'.2 q).mpr ⟨a, hull_trans b hin⟩

end GO
open GO

/-- **C136.** Of two convex closed polylines in a plane, one inside the other, the inner is not longer. -/
theorem C136_nested {n : V3 ℝ} {c : ℝ} {Q R : List (V3 ℝ)} (hn : n ≠ zero3) (hQ : ConvexLoop n Q) (hR : ConvexLoop n R)
    (lQ : ∀ q ∈ Q, inner3 n q = c) (lR : ∀ q ∈ R, inner3 n q = c) (hin : ∀ q ∈ Q, InHull3 R q) :
    ∃ L L', (poly Q true).totalLength = .ok L ∧ (poly R true).totalLength = .ok L' ∧ L ≤ L' := by
  refine ⟨_, _, (C35_lengths Q true).2, (C35_lengths R true).2, ?_⟩
  rw [Blmath.TM.tour_eq, Blmath.TM.tour_eq]
  exact nested hn hQ hR lQ lR hin

/-- **C136.** The tape measure keeps the order: of two closed polylines of a plane, the one whose points are convex combinations of the points of
the other is not longer once both are convexified, and then is not longer than the other is without. -/
theorem C136_convexify (env : HullEnv ℝ) (v v' : List (V3 ℝ)) (want want' : Bool) (na na' : NormalArg ℝ) (n : V3 ℝ) (c : ℝ)
    (hv : 2 ≤ v.length) (hv' : 2 ≤ v'.length) (hn : UsesNormal env v na n) (hn' : UsesNormal env v' na' n) (hn0 : n ≠ zero3)
    (hpl : ∀ p ∈ v, inner3 n p = c) (hpl' : ∀ p ∈ v', inner3 n p = c) (idx idx' : List ℕ)
    (hh : env.hull (v.map (dropDim (argmax3 (n.map npAbs)))) = .ok idx) (hh' : env.hull (v'.map (dropDim (argmax3 (n.map npAbs)))) = .ok idx')
    (hs : HullSpec (v.map (dropDim (argmax3 (n.map npAbs)))) idx) (hs' : HullSpec (v'.map (dropDim (argmax3 (n.map npAbs)))) idx')
    (h3 : 3 ≤ idx.length) (h3' : 3 ≤ idx'.length) (hin : ∀ p ∈ v, InHull3 v' p) :
    ∃ p p' i i' L L' L₂, convexify env (poly v true) false want na = .ok (p, i) ∧ convexify env (poly v' true) false want' na' = .ok (p', i') ∧
      p.totalLength = .ok L ∧ p'.totalLength = .ok L' ∧ (poly v' true).totalLength = .ok L₂ ∧ L ≤ L' ∧ L' ≤ L₂ := by
  obtain ⟨qs, h1, hp, hq⟩ := C57_planar env v true want na n c hv hn hn0 hpl idx hh hs
  obtain ⟨qs', h1', hp', hq'⟩ := C57_planar env v' true want' na' n c hv' hn' hn0 hpl' idx' hh' hs'
  have len : ∀ {v qs : List (V3 ℝ)} {idx : List ℕ}, Picks v idx qs → qs.length = idx.length := by
    intro v qs idx h
    have := congrArg List.length h
    simpa using this
  refine ⟨_, _, _, _, _, _, _, h1, h1', (C35_lengths _ _).2, (C35_lengths _ _).2, (C35_lengths _ _).2, ?_, ?_⟩
  · rw [Blmath.TM.tour_eq, Blmath.TM.tour_eq]
    refine nested hn0 (CX.loop_of_hull hn0 hpl hq (picks_mem hp) (by rw [len hp]; exact h3))
      (CX.loop_of_hull hn0 hpl' hq' (picks_mem hp') (by rw [len hp']; exact h3')) (fun q h => hpl q (picks_mem hp q h))
      (fun q h => hpl' q (picks_mem hp' q h)) fun q h => CX.hull_trans (hin q (picks_mem hp q h)) hq'.covers
  · rw [Blmath.TM.tour_eq, Blmath.TM.tour_eq]
    exact TM.hull_le hn0 hpl' (picks_mem hp') hq' (picks_mem hp')

/-- **C136.** Of two convex solids, one inside the other, cut by a plane that meets the inner one, the inner has the section that is not
longer. -/
theorem C136_sections (ver ver' : PyVer) (pk pk' : ℕ → Picker) (ko ko' : ℕ → KeyOrder) (pl : Plane ℝ) (m m' : Mesh ℝ) (hn : pl.n ≠ zero3)
    (hv : ValidFaces m) (ho : OutwardMesh m) (hf : m.f ≠ []) (hoff : ∀ p ∈ m.v, ¬ OnPlane pl p) (hap : CrossingsApart pl m)
    (hv' : ValidFaces m') (ho' : OutwardMesh m') (hf' : m'.f ≠ []) (hoff' : ∀ p ∈ m'.v, ¬ OnPlane pl p) (hap' : CrossingsApart pl m')
    (hin : ∀ p ∈ m.v, ∀ f ∈ m'.f, ∀ t, Spec.corners m'.v f = some t → Behind t p)
    (z : V3 ℝ) (hz : OnPlane pl z) (hzin : ∀ f ∈ m.f, ∀ t, Spec.corners m.v f = some t → Behind t z) :
    ∃ v v' L L', pl.meshXsections ver pk ko m = .ok [⟨v, true⟩] ∧ pl.meshXsections ver' pk' ko' m' = .ok [⟨v', true⟩] ∧
      (poly v true).totalLength = .ok L ∧ (poly v' true).totalLength = .ok L' ∧ L ≤ L' := by
  have hin' : ∀ p ∈ m.v, InHull3 m'.v p := fun p hp => (C135_inside m' hv' ho' hf' p).mpr (hin p hp)
  obtain ⟨v, h1, -, ⟨R, hR⟩, h2⟩ := C135_length ver pk ko pl m hn hv ho hf hoff hap z hz hzin
  obtain ⟨v', h1', -, ⟨R', hR'⟩, h2'⟩ := C135_length ver' pk' ko' pl m' hn hv' ho' hf' hoff' hap' z hz
    ((C135_inside m' hv' ho' hf' z).mp (CX.hull_trans ((C135_inside m hv ho hf z).mpr hzin) hin'))
  exact ⟨v, v', _, _, h1, h1', (h2 R hR).2, (h2' R' hR').2, outlines hn hR hR' hin'⟩

/-- **C136.** The same for strictly convex meshes. -/
theorem C136_convex (ver ver' : PyVer) (pk pk' : ℕ → Picker) (ko ko' : ℕ → KeyOrder) (pl : Plane ℝ) (m m' : Mesh ℝ) (hn : pl.n ≠ zero3)
    (hv : ValidFaces m) (hp : ∀ f ∈ m.f, ProperFace f) (hcl : ClosedMesh m) (hcv : ConvexMesh m) (hf : m.f ≠ [])
    (hoff : ∀ p ∈ m.v, ¬ OnPlane pl p)
    (hv' : ValidFaces m') (hp' : ∀ f ∈ m'.f, ProperFace f) (hcl' : ClosedMesh m') (hcv' : ConvexMesh m') (hf' : m'.f ≠ [])
    (hoff' : ∀ p ∈ m'.v, ¬ OnPlane pl p) (hin : ∀ p ∈ m.v, InHull3 m'.v p)
    (hcut : ∃ p ∈ m.v, ∃ q ∈ m.v, height pl p * height pl q < 0) :
    ∃ v v' L L', pl.meshXsections ver pk ko m = .ok [⟨v, true⟩] ∧ pl.meshXsections ver' pk' ko' m' = .ok [⟨v', true⟩] ∧
      (poly v true).totalLength = .ok L ∧ (poly v' true).totalLength = .ok L' ∧ L ≤ L' := by
  obtain ⟨v, h1, h2, h3⟩ := (C135_convex_sections ver pk ko pl m hn hv hp hcl hcv hf hoff).2 hcut
  have hc := C135_convex pl m hv hp hcl hcv hf hoff
  have hc' := C135_convex pl m' hv' hp' hcl' hcv' hf' hoff'
  obtain ⟨q, q1, q2⟩ := hc.2.2.mp (hc.2.1.mpr hcut)
  obtain ⟨v', h1', h2', h3'⟩ := (C135_convex_sections ver' pk' ko' pl m' hn hv' hp' hcl' hcv' hf' hoff').2
    (hc'.2.1.mp (hc'.2.2.mpr ⟨q, q1, CX.hull_trans q2 hin⟩))
  exact ⟨v, v', _, _, h1, h1', (C35_lengths _ _).2, (C35_lengths _ _).2, outlines hn ⟨h2, h3⟩ ⟨h2', h3'⟩ hin⟩

/-- **C136.** In particular a horizontal section of a convex solid is at most as long as the perimeter of the rectangle in which its vertices
are, seen from above. -/
theorem C136_level (ver : PyVer) (pk : ℕ → Picker) (ko : ℕ → KeyOrder) (r0 : V3 ℝ) (m : Mesh ℝ)
    (hv : ValidFaces m) (ho : OutwardMesh m) (hf : m.f ≠ []) (hoff : ∀ p ∈ m.v, ¬ OnPlane ⟨r0, ⟨0, 1, 0⟩⟩ p)
    (hap : CrossingsApart ⟨r0, ⟨0, 1, 0⟩⟩ m) (o s : V3 ℝ) (hx : 0 < s.x) (hz : 0 < s.z)
    (hin : ∀ p ∈ m.v, (o.x ≤ p.x ∧ p.x ≤ o.x + s.x) ∧ (o.z ≤ p.z ∧ p.z ≤ o.z + s.z))
    (hcut : ∃ p ∈ m.v, ∃ q ∈ m.v, p.y < r0.y ∧ r0.y < q.y) :
    ∃ v L, (⟨r0, ⟨0, 1, 0⟩⟩ : Plane ℝ).meshXsections ver pk ko m = .ok [⟨v, true⟩] ∧ (poly v true).totalLength = .ok L ∧
      L ≤ 2 * (s.x + s.z) := by
  have hn : (⟨0, 1, 0⟩ : V3 ℝ) ≠ zero3 := by
    intro h
    have := congrArg V3.y h
    simp [zero3] at this
  obtain ⟨hp, hcl⟩ := C135_closed m hv ho
  obtain ⟨a, ha, b, hb, h1, h2⟩ := hcut
  obtain ⟨v, k1, -, ⟨R, hR⟩, k3⟩ := C133_length ver pk ko ⟨r0, ⟨0, 1, 0⟩⟩ m hn hv hp hoff hcl ho hap
    ((C135_meets ⟨r0, ⟨0, 1, 0⟩⟩ m hv ho hf hoff).1.mpr ⟨a, ha, b, hb, by
      simp only [height, inner3, vec3]
      have := mul_neg_of_neg_of_pos (sub_neg.mpr h1) (sub_pos.mpr h2)
      linarith⟩)
  refine ⟨v, _, k1, (k3 R hR).2, ?_⟩
  rw [← GI.rect_length o s r0.y hx hz, Blmath.TM.tour_eq, Blmath.TM.tour_eq]
  refine nested (c := r0.y) hn hR.1 (.inl (GI.rect_loop o s r0.y hx hz)) (fun q hq => ?_) (fun q hq => ?_) fun q hq => ?_
  · have := outline_on hR q hq
    simpa [inner3] using this
  · simp [GI.rect] at hq
    rcases hq with rfl | rfl | rfl | rfl <;> simp [inner3]
  · obtain ⟨q1, q2⟩ := (hR.2 q).mp (Blmath.TM.inHull_self hq)
    rw [GI.rect_hull o s q _ hx hz]
    have up : ∀ w : V3 ℝ, ∀ k, _ → inner3 w q ≤ k := fun w k hk => CX.hull_bound (w := w) (k := k) q2 hk
    have x1 := up ⟨1, 0, 0⟩ (o.x + s.x) (fun p hp => by simpa [inner3] using (hin p hp).1.2)
    have x2 := up ⟨-1, 0, 0⟩ (-o.x) (fun p hp => by simpa [inner3] using (hin p hp).1.1)
    have z1 := up ⟨0, 0, 1⟩ (o.z + s.z) (fun p hp => by simpa [inner3] using (hin p hp).2.2)
    have z2 := up ⟨0, 0, -1⟩ (-o.z) (fun p hp => by simpa [inner3] using (hin p hp).2.1)
    have y1 := CX.inner_of_onPlane q1
    simp only [inner3] at x1 x2 y1 z1 z2
    refine ⟨by linarith, ⟨?_, ?_⟩, ?_, ?_⟩ <;> linarith

/-- **C136**, used on the unit cube in a larger box, cut by `x + y + z = 3/2`. -/
theorem C136_witness (ver : PyVer) (pk : ℕ → Picker) (ko : ℕ → KeyOrder) (diag : ℕ → Bool) :
    ∃ v v' L L', hexPlane.meshXsections ver pk ko (SolidSlice.box diag ⟨0, 0, 0⟩ ⟨1, 1, 1⟩) = .ok [⟨v, true⟩] ∧
      hexPlane.meshXsections ver pk ko (SolidSlice.box diag ⟨-1, 0, 0⟩ ⟨2, 2, 1⟩) = .ok [⟨v', true⟩] ∧
      (poly v true).totalLength = .ok L ∧ (poly v' true).totalLength = .ok L' ∧ L ≤ L' := by
  obtain ⟨hv, ho, hf, hoff, -⟩ := C135_witness ver pk ko diag
  have n1 : hexPlane.n ≠ zero3 := fun h => by simpa [hexPlane, zero3] using congrArg V3.x h
  have hv' := (SolidSlice.box_facts diag ⟨-1, 0, 0⟩ ⟨2, 2, 1⟩).1
  have ho' : OutwardMesh (SolidSlice.box diag ⟨-1, 0, 0⟩ ⟨2, 2, 1⟩) := FS.box_outward diag _ _ two_pos two_pos one_pos
  have hf' := IS.box_faces diag ⟨-1, 0, 0⟩ ⟨2, 2, 1⟩
  refine C136_sections ver ver pk pk ko ko hexPlane _ _ n1 hv ho hf (fun p hp => (hoff p hp).1)
    (GI.box_apart _ diag _ _ one_pos one_pos one_pos) hv' ho' hf' ?_ (GI.box_apart _ diag _ _ two_pos two_pos one_pos) ?_ ⟨1 / 2, 1 / 2, 1 / 2⟩ ?_ ?_
  · show ∀ p ∈ (createRectangularPrism diag (⟨-1, 0, 0⟩ : V3 ℝ) ⟨2, 2, 1⟩).1, ¬ OnPlane hexPlane p
    simp [createRectangularPrism, prismVertices, onPlane_iff, hexPlane, height, inner3, vec3]
    norm_num
  · intro p hp
    rw [← C135_inside _ hv' ho' hf']
    have h1 := (FS.box_hull ⟨0, 0, 0⟩ ⟨1, 1, 1⟩ p one_pos one_pos one_pos).mp (Blmath.TM.inHull_self hp)
    refine (FS.box_hull ⟨-1, 0, 0⟩ ⟨2, 2, 1⟩ p two_pos two_pos one_pos).mpr ?_
    simp only at h1 ⊢
    refine ⟨⟨?_, ?_⟩, ⟨?_, ?_⟩, ?_, ?_⟩ <;> linarith [h1.1.1, h1.1.2, h1.2.1.1, h1.2.1.2, h1.2.2.1, h1.2.2.2]
  · rw [onPlane_iff]; simp [hexPlane, height, inner3, vec3]
  · rw [← C135_inside _ hv ho hf]
    refine (FS.box_hull ⟨0, 0, 0⟩ ⟨1, 1, 1⟩ ⟨1 / 2, 1 / 2, 1 / 2⟩ one_pos one_pos one_pos).mpr ?_
    norm_num

/-- **C136**, used on two rectangles, of perimeters 6 and 8, and on the horizontal section of the unit cube, of length 4, seen in a rectangle of
perimeter 10. -/
theorem C136_level_witness (ver : PyVer) (pk : ℕ → Picker) (ko : ℕ → KeyOrder) (diag : ℕ → Bool) :
    (∃ Q R : List (V3 ℝ), ConvexLoop ⟨0, 1, 0⟩ Q ∧ ConvexLoop ⟨0, 1, 0⟩ R ∧ (∀ q ∈ Q, inner3 ⟨0, 1, 0⟩ q = 5) ∧
      (∀ q ∈ R, inner3 ⟨0, 1, 0⟩ q = 5) ∧ (∀ q ∈ Q, InHull3 R q) ∧ (poly Q true).totalLength = .ok 6 ∧ (poly R true).totalLength = .ok 8) ∧
    ∃ v, (⟨⟨0, 1 / 2, 0⟩, ⟨0, 1, 0⟩⟩ : Plane ℝ).meshXsections ver pk ko (SolidSlice.box diag ⟨0, 0, 0⟩ ⟨1, 1, 1⟩) = .ok [⟨v, true⟩] ∧
      (poly v true).totalLength = .ok 4 ∧
      ∃ L, (poly v true).totalLength = .ok L ∧ L ≤ 2 * ((⟨3, 0, 2⟩ : V3 ℝ).x + (⟨3, 0, 2⟩ : V3 ℝ).z) := by
  have lev : ∀ o s : V3 ℝ, ∀ q ∈ GI.rect o s 5, inner3 ⟨0, 1, 0⟩ q = 5 := by
    intro o s q hq
    simp [GI.rect] at hq
    rcases hq with rfl | rfl | rfl | rfl <;> simp [inner3]
  constructor
  · refine ⟨GI.rect ⟨0, 0, 0⟩ ⟨1, 0, 2⟩ 5, GI.rect ⟨-1, 0, 0⟩ ⟨2, 0, 2⟩ 5, .inl (GI.rect_loop _ _ _ one_pos two_pos),
      .inl (GI.rect_loop _ _ _ two_pos two_pos), lev _ _, lev _ _, fun q hq => ?_, ?_, ?_⟩
    · have := (GI.rect_hull _ _ q _ one_pos two_pos).mp (Blmath.TM.inHull_self hq)
      refine (GI.rect_hull _ _ q _ two_pos two_pos).mpr ?_
      simp only at this ⊢
      refine ⟨this.1, ⟨?_, ?_⟩, ?_, ?_⟩ <;> linarith [this.2.1.1, this.2.1.2, this.2.2.1, this.2.2.2]
    · rw [(C35_lengths _ _).2, GI.rect_length _ _ _ one_pos two_pos]; norm_num
    · rw [(C35_lengths _ _).2, GI.rect_length _ _ _ two_pos two_pos]; norm_num
  · obtain ⟨v, h1, -, h3⟩ := C133_level ver pk ko ⟨0, 1 / 2, 0⟩ diag ⟨0, 0, 0⟩ ⟨1, 1, 1⟩ one_pos one_pos (by norm_num) (by norm_num)
    obtain ⟨hv, ho, hf, -⟩ := C135_witness ver pk ko diag
    obtain ⟨v', L, k1, k2, k3⟩ := C136_level ver pk ko ⟨0, 1 / 2, 0⟩ _ hv ho hf (by
      show ∀ p ∈ (createRectangularPrism diag (⟨0, 0, 0⟩ : V3 ℝ) ⟨1, 1, 1⟩).1, ¬ OnPlane ⟨⟨0, 1 / 2, 0⟩, ⟨0, 1, 0⟩⟩ p
      simp [createRectangularPrism, prismVertices, onPlane_iff, height, inner3, vec3]
      norm_num) (GI.box_apart _ diag _ _ one_pos one_pos one_pos) ⟨-1, 0, 0⟩ ⟨3, 0, 2⟩ (by norm_num) (by norm_num) (fun p hp => by
        have h1 := (FS.box_hull ⟨0, 0, 0⟩ ⟨1, 1, 1⟩ p one_pos one_pos one_pos).mp (Blmath.TM.inHull_self hp)
        simp only at h1 ⊢
        refine ⟨⟨?_, ?_⟩, ?_, ?_⟩ <;> linarith [h1.1.1, h1.1.2, h1.2.2.1, h1.2.2.2])
      ⟨⟨0, 0, 0⟩, by simp [SolidSlice.box, createRectangularPrism, prismVertices], ⟨1, 1, 1⟩,
        by simp [SolidSlice.box, createRectangularPrism, prismVertices, V3.ext_iff], by norm_num, by norm_num⟩
    have h1' : (⟨⟨0, 1 / 2, 0⟩, ⟨0, 1, 0⟩⟩ : Plane ℝ).meshXsections ver pk ko (SolidSlice.box diag ⟨0, 0, 0⟩ ⟨1, 1, 1⟩) = .ok [⟨v, true⟩] := h1
    rw [h1'] at k1
    have : v = v' := by simpa using k1
    subst this
    refine ⟨v, h1', ?_, L, k2, k3⟩
    rw [h3]; norm_num

end Blmath.Props
