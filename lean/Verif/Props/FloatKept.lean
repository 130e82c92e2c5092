import Verif.Props.CutPoints
import Verif.Props.FloatChord
import Verif.Props.FloatCut

/-!
Property C149: the points of the polyline that `cut_by_plane` returns in rounded arithmetic.
-/

namespace Blmath.Props
open Blmath.Geometry Blmath.Spec Blmath.Proofs FS FM FP FCh

namespace FK
open CP

variable {pl : Plane ℝ} {a b c q : V3 ℝ} {r K : ℝ}

theorem nearby_mono {P Q : V3 ℝ → Prop} {x : V3 ℝ} (h : Nearby r P x) (hPQ : ∀ y, P y → Q y) : Nearby r Q x := by
  obtain ⟨y, h1, h2⟩ := h
  exact ⟨y, hPQ y h1, h2⟩

theorem nearby_self {P : V3 ℝ → Prop} {x : V3 ℝ} (hr : 0 ≤ r) (h : P x) : Nearby r P x :=
  ⟨x, h, by rw [dist3_eq_zero.mpr rfl]; exact hr⟩

theorem seg_ge {k : ℝ} {x : V3 ℝ} (h : OnSegment a b x) (ha : k ≤ height pl a) (hb : k ≤ height pl b) : k ≤ height pl x := by
  obtain ⟨t, t0, t1, rfl⟩ := h
  rw [RC.height_along]
  nlinarith

theorem seg_sub {x : V3 ℝ} (hc : OnSegment a b c) (h : OnSegment c b x) : OnSegment a b x := by
  obtain ⟨s, s0, s1, rfl⟩ := hc
  obtain ⟨t, t0, t1, rfl⟩ := h
  refine ⟨s + t * (1 - s), by nlinarith, by nlinarith, ?_⟩
  ext <;> simp only [along, vec3] <;> ring

/-- the ends of the segments are near: `q` takes the place of a point `c` near the plane of the segment from `a` up to `b` -/
theorem seg_down (hc : OnSegment a b c) (hq : dist3 c q ≤ r) (hK : |height pl c| ≤ K) (hb : 0 < height pl b) {x : V3 ℝ} (h : OnSegment q b x) :
    Nearby r (fun y => OnSegment a b y ∧ -K ≤ height pl y) x := by
  have r0 : 0 ≤ r := le_trans (len3_nonneg _) hq
  have K0 : 0 ≤ K := le_trans (abs_nonneg _) hK
  refine nearby_mono (endsNear_points (s := (c, b)) (t := (q, b)) ⟨hq, by simpa [dist3_eq_zero.mpr] using r0⟩ h) fun y hy => ?_
  exact ⟨seg_sub hc hy, seg_ge hy (abs_le.mp hK).1 (by linarith)⟩

theorem seg_up (hc : OnSegment a b c) (hq : dist3 c q ≤ r) (hK : |height pl c| ≤ K) (ha : height pl a < 0) (hb : 0 < height pl b) {y : V3 ℝ} (h : OnSegment a b y)
    (hy : K ≤ height pl y) : Nearby r (OnSegment q b) y := by
  have r0 : 0 ≤ r := le_trans (len3_nonneg _) hq
  refine endsNear_points (s := (q, b)) (t := (c, b)) ⟨by rw [dist3_comm]; exact hq, by simpa [dist3_eq_zero.mpr] using r0⟩ ?_
  have hK' := (abs_le.mp hK).2
  obtain ⟨s, s0, s1, rfl⟩ := hc
  obtain ⟨t, t0, t1, rfl⟩ := h
  rw [RC.height_along] at hK' hy
  exact (RP.seg_order a b s t s0 (by by_contra hc; nlinarith) t1).2

variable {xs ys : List (V3 ℝ)}

theorem path_down (hx : ∀ p ∈ b :: ys, 0 < height pl p) (hc : OnSegment a b c) (hq : dist3 c q ≤ r) (hK : |height pl c| ≤ K)
    {x : V3 ℝ} (h : On (q :: b :: ys) x) : Nearby r (fun y => On (xs ++ a :: b :: ys) y ∧ -K ≤ height pl y) x := by
  have r0 : 0 ≤ r := le_trans (len3_nonneg _) hq
  have K0 : 0 ≤ K := le_trans (abs_nonneg _) hK
  rcases on_cons.mp h with h | h
  · exact nearby_mono (seg_down hc hq hK (hx b (by simp)) h) fun y hy => ⟨on_mid.mpr (.inr (.inl hy.1)), hy.2⟩
  · exact nearby_self r0 ⟨on_mid.mpr (.inr (.inr h)), by linarith [on_nonneg h fun p hp => (hx p hp).le]⟩

theorem path_up (hw : ∀ p ∈ xs ++ [a], height pl p < 0) (hx : ∀ p ∈ b :: ys, 0 < height pl p) (hc : OnSegment a b c) (hq : dist3 c q ≤ r) (hK : |height pl c| ≤ K)
    {y : V3 ℝ} (h : On (xs ++ a :: b :: ys) y) (hy : K ≤ height pl y) : Nearby r (On (q :: b :: ys)) y := by
  have r0 : 0 ≤ r := le_trans (len3_nonneg _) hq
  have K0 : 0 ≤ K := le_trans (abs_nonneg _) hK
  rcases on_mid.mp h with h | h | h
  · linarith [on_neg h hw]
  · exact nearby_mono (seg_up hc hq hK (hw a (by simp)) (hx b (by simp)) h hy) fun x hx => on_cons.mpr (.inl hx)
  · exact nearby_self r0 (on_cons.mpr (.inr h))

/-- `x` and `y` are the same up to `r`: what is true of the height of one is nearly true of the other -/
theorem height_dist (hn : Within (5 / 4) pl.n) (x y : V3 ℝ) : |height pl x - height pl y| ≤ 9 / 4 * dist3 x y := by
  have e : height pl x - height pl y = -inner3 pl.n (vec3 x y) := by
    simp only [height, inner3, vec3]; ring
  have hs : dist3 x y ^ 2 = (vec3 x y).x ^ 2 + (vec3 x y).y ^ 2 + (vec3 x y).z ^ 2 := by
    unfold dist3 len3
    rw [Real.sq_sqrt (by positivity)]
  have h0 : 0 ≤ dist3 x y := len3_nonneg _
  rw [e, abs_neg]
  generalize vec3 x y = d at hs ⊢
  obtain ⟨n1, n2, n3⟩ := hn
  have h1 : |inner3 pl.n d| ≤ 5 / 4 * (|d.x| + |d.y| + |d.z|) := by
    unfold inner3
    have t1 : |pl.n.x * d.x| ≤ 5 / 4 * |d.x| := by rw [abs_mul]; exact mul_le_mul_of_nonneg_right n1 (abs_nonneg _)
    have t2 : |pl.n.y * d.y| ≤ 5 / 4 * |d.y| := by rw [abs_mul]; exact mul_le_mul_of_nonneg_right n2 (abs_nonneg _)
    have t3 : |pl.n.z * d.z| ≤ 5 / 4 * |d.z| := by rw [abs_mul]; exact mul_le_mul_of_nonneg_right n3 (abs_nonneg _)
    have := abs_add_three (pl.n.x * d.x) (pl.n.y * d.y) (pl.n.z * d.z)
    linarith
  have h2 : |d.x| + |d.y| + |d.z| ≤ 9 / 5 * dist3 x y := by
    refine abs_le_of_sq_le_sq' ?_ (by positivity) |>.2
    rw [mul_pow, hs, ← sq_abs d.x, ← sq_abs d.y, ← sq_abs d.z]
    nlinarith [sq_nonneg (|d.x| - |d.y|), sq_nonneg (|d.y| - |d.z|), sq_nonneg (|d.x| - |d.z|), sq_nonneg |d.x|, sq_nonneg |d.y|, sq_nonneg |d.z|]
  linarith

theorem dist_within {e : ℝ} (h : Within e (vec3 a b)) : dist3 a b ≤ 11 / 6 * e := by
  obtain ⟨h1, h2, h3⟩ := h
  have e0 : 0 ≤ e := le_trans (abs_nonneg _) h1
  unfold dist3 len3
  rw [Real.sqrt_le_left (by positivity)]
  have s1 := sq_le_sq' (abs_le.mp h1).1 (abs_le.mp h1).2
  have s2 := sq_le_sq' (abs_le.mp h2).1 (abs_le.mp h2).2
  have s3 := sq_le_sq' (abs_le.mp h3).1 (abs_le.mp h3).2
  nlinarith

/-- what C103 says about a computed crossing -/
theorem near_edge {rnd : ℝ → ℝ} {u M : ℝ} {pl : Plane (Rd rnd)} {a b q : V3 (Rd rnd)} (hn : Within (5 / 4) (Rd.vec pl.n)) (h : NearEdge u M pl a b q) :
    ∃ c, OnSegment (Rd.vec a) (Rd.vec b) c ∧ dist3 c (Rd.vec q) ≤ 11 * (u * M) ∧ |height (exactPlane pl) c| ≤ 115 * (u * M) := by
  obtain ⟨⟨c, h1, h2⟩, h3⟩ := h
  have d := dist_within h2
  have k := height_dist (pl := exactPlane pl) hn c (Rd.vec q)
  refine ⟨c, h1, by linarith, ?_⟩
  have := abs_sub_abs_le_abs_sub (height (exactPlane pl) c) (height (exactPlane pl) (Rd.vec q))
  have h0 : 0 ≤ u * M := by nlinarith [abs_nonneg (height (exactPlane pl) (Rd.vec q))]
  linarith

variable {rnd : ℝ → ℝ} {u M : ℝ} {P : Plane (Rd rnd)}

/-- what the cut of one polyline is: `w` is near to the part of `v` in front of the plane -/
def NearKept (r K : ℝ) (pl : Plane ℝ) (v : List (V3 ℝ)) (closed : Bool) (w : List (V3 ℝ)) : Prop :=
  (∀ x, OnChain w false x → Nearby r (fun y => OnChain v closed y ∧ -K ≤ height pl y) x) ∧
  ∀ y, OnChain v closed y → K ≤ height pl y → Nearby r (OnChain w false) y

set_option maxHeartbeats 1000000 in
theorem kept_open (h : Rounding rnd u) (hu0 : 0 < u) (hu : u ≤ 1 / 1000) (hM : 0 < M) (v : List (V3 (Rd rnd)))
    (hr : Within M (Rd.vec P.r0)) (hn : Within (5 / 4) (Rd.vec P.n)) (hv : ∀ p ∈ v, Good u M P p)
    (hc : meetCount (exactPlane P) (v.map Rd.vec) false = 1) :
    ∃ w, (poly v false).cutByPlane P = .ok (poly w false) ∧ NearKept (11 * (u * M)) (115 * (u * M)) (exactPlane P) (v.map Rd.vec) false (w.map Rd.vec) := by
  obtain ⟨i, a, b, q, ha, hb, he, hcut⟩ := C103_open h hu0 hu hM P v hr hn hv hc
  obtain ⟨c, c1, c2, c3⟩ := near_edge hn he
  obtain ⟨ia, ha⟩ := List.getElem?_eq_some_iff.mp ha
  obtain ⟨ib, hb⟩ := List.getElem?_eq_some_iff.mp hb
  obtain ⟨xs, ys, rfl, hx⟩ : ∃ xs ys, v = xs ++ a :: b :: ys ∧ xs.length = i := by
    refine ⟨v.take i, v.drop (i + 2), ?_, by simp; omega⟩
    rw [← ha, ← hb, ← List.drop_eq_getElem_cons, ← List.drop_eq_getElem_cons, List.take_append_drop]
  subst hx
  have ht : (xs ++ a :: b :: ys).take (xs.length + 1) = xs ++ [a] := by
    rw [show xs ++ a :: b :: ys = (xs ++ [a]) ++ (b :: ys) by simp, List.take_left' (by simp)]
  have hd : (xs ++ a :: b :: ys).drop (xs.length + 1) = b :: ys := by
    rw [show xs ++ a :: b :: ys = (xs ++ [a]) ++ (b :: ys) by simp, List.drop_left' (by simp)]
  rw [ht, hd] at hcut
  rcases hcut with ⟨h1, h2, h3⟩ | ⟨h1, h2, h3⟩
  · have h1' : ∀ p ∈ xs.map Rd.vec ++ [Rd.vec a], height (exactPlane P) p < 0 := by
      intro p hp
      rw [show xs.map Rd.vec ++ [Rd.vec a] = (xs ++ [a]).map Rd.vec by simp] at hp
      obtain ⟨p', hp', rfl⟩ := List.mem_map.mp hp
      exact h1 p' hp'
    have h2' : ∀ p ∈ Rd.vec b :: ys.map Rd.vec, 0 < height (exactPlane P) p := by
      intro p hp
      rw [← List.map_cons] at hp
      obtain ⟨p', hp', rfl⟩ := List.mem_map.mp hp
      exact h2 p' hp'
    refine ⟨_, h3, fun x hx => ?_, fun y hy hK => ?_⟩
    · rw [onChain_open] at hx
      refine nearby_mono (path_down (xs := xs.map Rd.vec) h2' c1 c2 c3 (by simpa using hx)) fun y hy => ?_
      rw [onChain_open]
      simpa using hy
    · rw [onChain_open] at hy
      refine nearby_mono (path_up (xs := xs.map Rd.vec) h1' h2' c1 c2 c3 (by simpa using hy) hK) fun x hx => ?_
      rw [onChain_open]
      simpa using hx
  · have h1' : ∀ p ∈ Rd.vec a :: (xs.map Rd.vec).reverse, 0 < height (exactPlane P) p := by
      intro p hp
      have : p ∈ (xs ++ [a]).map Rd.vec := by simpa [or_comm] using hp
      obtain ⟨p', hp', rfl⟩ := List.mem_map.mp this
      exact h1 p' hp'
    have h2' : ∀ p ∈ (ys.map Rd.vec).reverse ++ [Rd.vec b], height (exactPlane P) p < 0 := by
      intro p hp
      have : p ∈ (b :: ys).map Rd.vec := by simpa [or_comm] using hp
      obtain ⟨p', hp', rfl⟩ := List.mem_map.mp this
      exact h2 p' hp'
    have c1' := onSegment_swap _ _ _ c1
    refine ⟨_, h3, fun x hx => ?_, fun y hy hK => ?_⟩
    · rw [onChain_open, ← on_reverse] at hx
      refine nearby_mono (path_down (xs := (ys.map Rd.vec).reverse) h1' c1' c2 c3 (by simpa using hx)) fun y hy => ?_
      rw [onChain_open, ← on_reverse]
      simpa using hy
    · rw [onChain_open, ← on_reverse] at hy
      refine nearby_mono (path_up (xs := (ys.map Rd.vec).reverse) h2' h1' c1' c2 c3 (by simpa using hy) hK) fun x hx => ?_
      rw [onChain_open, ← on_reverse]
      simpa using hx

set_option maxHeartbeats 1000000 in
theorem kept_closed (h : Rounding rnd u) (hu0 : 0 < u) (hu : u ≤ 1 / 1000) (hM : 0 < M) (v : List (V3 (Rd rnd)))
    (hr : Within M (Rd.vec P.r0)) (hn : Within (5 / 4) (Rd.vec P.n)) (hv : ∀ p ∈ v, Good u M P p)
    (hc : meetCount (exactPlane P) (v.map Rd.vec) true = 2) :
    ∃ w, (poly v true).cutByPlane P = .ok (poly w false) ∧ NearKept (11 * (u * M)) (115 * (u * M)) (exactPlane P) (v.map Rd.vec) true (w.map Rd.vec) := by
  obtain ⟨r, F, B, f0, f1, b0, b1, S, E, e1, e2, e3, e4, e5, e6, e7, e8, e9, e10⟩ := C103_closed h hu0 hu hM P v hr hn hv hc
  obtain ⟨X, x1, x2, x3⟩ := near_edge hn e8
  obtain ⟨Y, y1, y2, y3⟩ := near_edge hn e9
  have y1 := onSegment_swap _ _ _ y1
  have r0 : 0 ≤ 11 * (u * M) := by positivity
  have m0 := e2 _ (List.mem_of_head? e4)
  have m1 := e2 _ (List.mem_of_getLast? e5)
  have n0 := e3 _ (List.mem_of_head? e6)
  have n1 := e3 _ (List.mem_of_getLast? e7)
  have E2 : ∀ p ∈ F.map Rd.vec, 0 ≤ height (exactPlane P) p := by
    intro p hp
    obtain ⟨p', hp', rfl⟩ := List.mem_map.mp hp
    exact (e2 p' hp').le
  have E3 : ∀ p ∈ B.map Rd.vec, height (exactPlane P) p < 0 := by
    intro p hp
    obtain ⟨p', hp', rfl⟩ := List.mem_map.mp hp
    exact e3 p' hp'
  have E4 : (F.map Rd.vec).head? = some (Rd.vec f0) := by rw [List.head?_map, e4]; rfl
  have E5 : (F.map Rd.vec).getLast? = some (Rd.vec f1) := by rw [List.getLast?_map, e5]; rfl
  have E6 : (B.map Rd.vec).head? = some (Rd.vec b0) := by rw [List.head?_map, e6]; rfl
  have E7 : (B.map Rd.vec).getLast? = some (Rd.vec b1) := by rw [List.getLast?_map, e7]; rfl
  have hv' : ∀ y, OnChain (v.map Rd.vec) true y ↔
      (On (F.map Rd.vec) y ∨ OnSegment (Rd.vec f1) (Rd.vec b0) y ∨ On (B.map Rd.vec) y) ∨ OnSegment (Rd.vec b1) (Rd.vec f0) y := by
    intro y
    have hlast : (F.map Rd.vec ++ B.map Rd.vec).getLast? = some (Rd.vec b1) := by rw [List.getLast?_append, E7]; rfl
    rw [← onChain_rotate r, ← List.map_rotate, e1, List.map_append, onChain_closed (a := Rd.vec f0) (by rw [List.head?_append, E4]; rfl),
      on_join hlast (b := Rd.vec f0) rfl, on_join E5 E6]
    simp only [on_single, or_false]
  have hw' : ∀ x, OnChain ((S :: F ++ [E]).map Rd.vec) false x ↔
      OnSegment (Rd.vec S) (Rd.vec f0) x ∨ On (F.map Rd.vec) x ∨ OnSegment (Rd.vec f1) (Rd.vec E) x := by
    intro x
    rw [onChain_open, show (S :: F ++ [E]).map Rd.vec = [Rd.vec S] ++ (F.map Rd.vec ++ [Rd.vec E]) by simp,
      on_join (a := Rd.vec S) (b := Rd.vec f0) rfl (by rw [List.head?_append, E4]; rfl), on_join E5 (b := Rd.vec E) rfl]
    simp only [on_single, or_false, false_or]
  refine ⟨_, e10, fun x hx => ?_, fun y hy hK => ?_⟩
  · rcases (hw' x).mp hx with hx | hx | hx
    · exact nearby_mono (seg_down x1 x2 x3 m0 hx) fun y hy => ⟨(hv' y).mpr (.inr hy.1), hy.2⟩
    · exact nearby_self r0 ⟨(hv' x).mpr (.inl (.inl hx)), by have := on_nonneg hx E2; nlinarith⟩
    · exact nearby_mono (seg_down y1 y2 y3 m1 (onSegment_swap _ _ _ hx)) fun y hy =>
        ⟨(hv' y).mpr (.inl (.inr (.inl (onSegment_swap _ _ _ hy.1)))), hy.2⟩
  · rcases (hv' y).mp hy with (hy | hy | hy) | hy
    · exact nearby_self r0 ((hw' y).mpr (.inr (.inl hy)))
    · exact nearby_mono (seg_up y1 y2 y3 n0 m1 (onSegment_swap _ _ _ hy) hK) fun x hx => (hw' x).mpr (.inr (.inr (onSegment_swap _ _ _ hx)))
    · have := on_neg hy E3
      nlinarith
    · exact nearby_mono (seg_up x1 x2 x3 n1 m0 hy hK) fun x hx => (hw' x).mpr (.inl hx)

end FK
open FK CP

variable {rnd : ℝ → ℝ} {u : ℝ}

/-- **C149.** In rounded arithmetic `cut_by_plane` either raises `ValueError` or returns an open polyline. Every point of it is within `11·u·M` of a point of the given polyline
that is at most `115·u·M` behind the plane, and every point of the given polyline at least `115·u·M` in front of the plane is within `11·u·M` of a point of it. -/
theorem C149_points (h : Rounding rnd u) (hu0 : 0 < u) (hu : u ≤ 1 / 1000) {M : ℝ} (hM : 0 < M) (pl : Plane (Rd rnd)) (v : List (V3 (Rd rnd))) (closed : Bool)
    (hr : Within M (Rd.vec pl.r0)) (hn : Within (5 / 4) (Rd.vec pl.n)) (hv : ∀ p ∈ v, Good u M pl p) :
    (poly v closed).cutByPlane pl = .error .ValueError ∨
    ∃ w, (poly v closed).cutByPlane pl = .ok (poly w false) ∧
      (∀ x, OnChain (w.map Rd.vec) false x →
        Nearby (11 * (u * M)) (fun y => OnChain (v.map Rd.vec) closed y ∧ -(115 * (u * M)) ≤ height (exactPlane pl) y) x) ∧
      ∀ y, OnChain (v.map Rd.vec) closed y → 115 * (u * M) ≤ height (exactPlane pl) y → Nearby (11 * (u * M)) (OnChain (w.map Rd.vec) false) y := by
  by_cases hc : meetCount (exactPlane pl) (v.map Rd.vec) closed = if closed then 2 else 1
  · right
    cases closed
    · exact kept_open h hu0 hu hM v hr hn hv hc
    · exact kept_closed h hu0 hu hM v hr hn hv hc
  · exact .inl (C103_count h hu0 hu hM pl v closed hr hn hv hc)

/-- what is kept of one computed component of a cross-section: nothing of a component behind the plane, all of a component in front of it, and of any other component what
`cut_by_plane` returns -/
def KeptR (pl : Plane (Rd rnd)) (c : Section (Rd rnd)) (k : List (V3 (Rd rnd)) × Bool) : Prop :=
  ((∀ p ∈ c.v, height (exactPlane pl) (Rd.vec p) < 0) ∧ k = ([], false)) ∨
  ((∀ p ∈ c.v, 0 < height (exactPlane pl) (Rd.vec p)) ∧ k = (c.v, c.closed)) ∨
  ((poly c.v c.closed).cutByPlane pl = .ok (poly k.1 false) ∧ k.2 = false)

/-- one component -/
theorem FK.kept_near (h : Rounding rnd u) (hu0 : 0 < u) (hu : u ≤ 1 / 1000) {M : ℝ} (hM : 0 < M) {pl : Plane (Rd rnd)} {c : Section (Rd rnd)} {k : List (V3 (Rd rnd)) × Bool}
    (hr : Within M (Rd.vec pl.r0)) (hn : Within (5 / 4) (Rd.vec pl.n)) (hv : ∀ p ∈ c.v, Good u M pl p) (hk : KeptR pl c k) :
    (∀ x, OnChain (k.1.map Rd.vec) k.2 x →
      Nearby (11 * (u * M)) (fun y => OnChain (c.v.map Rd.vec) c.closed y ∧ -(115 * (u * M)) ≤ height (exactPlane pl) y) x) ∧
    ∀ y, OnChain (c.v.map Rd.vec) c.closed y → 115 * (u * M) ≤ height (exactPlane pl) y → Nearby (11 * (u * M)) (OnChain (k.1.map Rd.vec) k.2) y := by
  have K0 : 0 < u * M := mul_pos hu0 hM
  rcases hk with ⟨h1, rfl⟩ | ⟨h1, rfl⟩ | ⟨h1, h2⟩
  · refine ⟨fun x hx => ?_, fun y hy hK => ?_⟩
    · rw [onChain_open] at hx
      exact absurd hx (by simpa using on_nil)
    · have := behind (pl := exactPlane pl) hy fun p hp => by
        obtain ⟨p', hp', rfl⟩ := List.mem_map.mp hp
        exact h1 p' hp'
      linarith
  · refine ⟨fun x hx => nearby_self (by linarith) ⟨hx, ?_⟩, fun y hy _ => nearby_self (by linarith) hy⟩
    obtain ⟨s, hs, hx⟩ := hx
    have hm := FP.mem_segs _ _ s hs
    have pos : ∀ p ∈ c.v.map Rd.vec, -(115 * (u * M)) ≤ height (exactPlane pl) p := by
      intro p hp
      obtain ⟨p', hp', rfl⟩ := List.mem_map.mp hp
      linarith [h1 p' hp']
    exact seg_ge hx (pos _ hm.1) (pos _ hm.2)
  · obtain ⟨l, cl⟩ := k
    simp only at h1 h2
    subst h2
    rcases C149_points h hu0 hu hM pl c.v c.closed hr hn hv with h3 | ⟨w, h3, h4⟩
    · rw [h1] at h3; cases h3
    · rw [h1] at h3
      injection h3 with h3
      have : l = w := Option.some.inj (congrArg Polyline.v h3)
      subst this
      exact h4

/-- the computed vertices of a section are good for a second plane if the exact ones are clear of it -/
theorem FK.vertices_good (h : Rounding rnd u) {M M' s : ℝ} (ver : PyVer) (pk : ℕ → Picker) (ko : ℕ → KeyOrder) (A B : Plane (Rd rnd)) (m : Mesh (Rd rnd)) (ok : SliceOK u M s A m)
    (hM : 2 * M ≤ M') (hn : Within (5 / 4) (Rd.vec B.n))
    (hx : ∀ e x, CrossedEdge (exactPlane A) (exactMesh m) e → CrossPoint (exactPlane A) (exactMesh m) e x →
      100 * (u * M') + 9 / 4 * ((9 + 109 / s) * (u * M)) ≤ |height (exactPlane B) x|) :
    ∃ cs, ∃ ess : List (List (ℕ × ℕ)), A.meshXsections ver pk ko m = .ok cs ∧
      List.Forall₂ (fun es (c : Section (Rd rnd)) => es ≠ [] ∧ (c.closed = true → 3 ≤ es.length) ∧ List.Forall₂ (fun e p => CrossedEdge (exactPlane A) (exactMesh m) e ∧
        Good u M' B p ∧ Nearby ((9 + 109 / s) * (u * M)) (CrossPoint (exactPlane A) (exactMesh m) e) (Rd.vec p)) es c.v) ess cs ∧ ess.flatten.Nodup ∧
      (ClosedMesh (exactMesh m) → ∀ c ∈ cs, c.closed = true) := by
  obtain ⟨cs, ess, h1, h2, h3, h4, h5⟩ := C102_manifold h ok.small.1 ok.small.2 ok.size ver pk ko A m ok.reference ok.normal
    ok.vertices ok.valid ok.proper ok.manifold ok.apart
  refine ⟨cs, ess, h1, ?_, h3, h5⟩
  have good : ∀ e p, CrossedEdge (exactPlane A) (exactMesh m) e → NearCross u M A m e p → Good u M' B p ∧
      Nearby ((9 + 109 / s) * (u * M)) (CrossPoint (exactPlane A) (exactMesh m) e) (Rd.vec p) := by
    intro e p he hp
    have near := near_crossing ok.small.1 ok.size ok.slope ok.normal ok.steep he hp
    refine ⟨⟨?_, ?_, ?_⟩, near⟩
    · obtain ⟨a, b, ha, hb, -, ⟨c, ⟨t, t0, t1, rfl⟩, w1, w2, w3⟩, -⟩ := hp
      obtain ⟨a1, a2, a3⟩ := (ok.vertices a (List.mem_of_getElem? ha)).within
      obtain ⟨b1, b2, b3⟩ := (ok.vertices b (List.mem_of_getElem? hb)).within
      have hK : u * M ≤ 1 / 1000 * M := mul_le_mul_of_nonneg_right ok.small.2 ok.size.le
      have key : ∀ i j k : ℝ, |i| ≤ M → |j| ≤ M → |k - (i + t * (j - i))| ≤ 5 * (u * M) → |k| ≤ M' := by
        intro i j k hi hj hk
        rw [abs_le] at hi hj hk ⊢
        have := ok.size
        constructor <;> nlinarith
      exact ⟨key _ _ _ a1 b1 w1, key _ _ _ a2 b2 w2, key _ _ _ a3 b3 w3⟩
    · obtain ⟨_, _, _, _, hs, _⟩ := hp
      exact hs
    · obtain ⟨x, hx1, hx2⟩ := near
      have := hx e x he hx1
      have hd := height_dist (pl := exactPlane B) hn x (Rd.vec p)
      have := abs_sub_abs_le_abs_sub (height (exactPlane B) x) (height (exactPlane B) (Rd.vec p))
      show 100 * (u * M') ≤ |height (exactPlane B) (Rd.vec p)|
      linarith
  have all : ∀ es ∈ ess, ∀ e ∈ es, CrossedEdge (exactPlane A) (exactMesh m) e := fun es hes e he => (h4 e).mp (List.mem_flatten.mpr ⟨es, hes, he⟩)
  have pts : ∀ (es : List (ℕ × ℕ)) (l : List (V3 (Rd rnd))), (∀ e ∈ es, CrossedEdge (exactPlane A) (exactMesh m) e) → List.Forall₂ (NearCross u M A m) es l →
      List.Forall₂ (fun e p => CrossedEdge (exactPlane A) (exactMesh m) e ∧
        Good u M' B p ∧ Nearby ((9 + 109 / s) * (u * M)) (CrossPoint (exactPlane A) (exactMesh m) e) (Rd.vec p)) es l := by
    intro es l hes hl
    induction hl with
    | nil => exact .nil
    | cons k _ ih => exact .cons ⟨hes _ (by simp), good _ _ (hes _ (by simp)) k⟩ (ih fun e he => hes e (List.mem_cons_of_mem _ he))
  clear h1 h3 h4 h5
  induction h2 with
  | nil => exact .nil
  | cons k _ ih =>
    exact .cons ⟨k.nonempty, fun hc => (k.closing hc).1, pts _ _ (all _ (by simp)) k.points⟩ (ih fun es hes => all es (List.mem_cons_of_mem _ hes))

theorem FK.forall₂_right {α β : Type} {R : α → β → Prop} {l : List α} {k : List β} (h : List.Forall₂ R l k) : ∀ b ∈ k, ∃ a ∈ l, R a b := by
  induction h with
  | nil => simp
  | cons h1 _ ih =>
    intro k hk
    rcases List.mem_cons.mp hk with rfl | hk
    · exact ⟨_, by simp, h1⟩
    · obtain ⟨c, hc, h⟩ := ih k hk
      exact ⟨c, List.mem_cons_of_mem _ hc, h⟩

/-- **C149.** A half section of a mesh in rounded arithmetic: `m` is cut by the plane `A`, and of every component of the section only what is in front of the plane `B` is kept. With
`R = (9 + 109/s)·u·M`, the distance of the computed section from the exact one: every point that is kept is within `R + 11·u·M'` of a point of the surface and the plane `A` that is at
most `115·u·M' + 9/4·R` behind `B`, and every point of the surface and `A` that is at least that far in front of `B` is within `R + 11·u·M'` of a point that is kept. The points where edges cross `A` have to be at least
`100·u·M' + 9/4·R` away from `B`. -/
theorem C149_sections (h : Rounding rnd u) {M M' s : ℝ} (ver : PyVer) (pk : ℕ → Picker) (ko : ℕ → KeyOrder) (A B : Plane (Rd rnd)) (m : Mesh (Rd rnd)) (ok : SliceOK u M s A m)
    (hM : 2 * M ≤ M') (hr : Within M' (Rd.vec B.r0)) (hn : Within (5 / 4) (Rd.vec B.n))
    (hx : ∀ e x, CrossedEdge (exactPlane A) (exactMesh m) e → CrossPoint (exactPlane A) (exactMesh m) e x →
      100 * (u * M') + 9 / 4 * ((9 + 109 / s) * (u * M)) ≤ |height (exactPlane B) x|) :
    ∃ cs, A.meshXsections ver pk ko m = .ok cs ∧ ∀ ks, List.Forall₂ (KeptR B) cs ks →
      (∀ q, (∃ k ∈ ks, OnChain (k.1.map Rd.vec) k.2 q) →
        Nearby ((9 + 109 / s) * (u * M) + 11 * (u * M')) (fun x => OnPlane (exactPlane A) x ∧ OnSurface (exactMesh m) x ∧
          -(115 * (u * M') + 9 / 4 * ((9 + 109 / s) * (u * M))) ≤ height (exactPlane B) x) q) ∧
      ∀ x, OnPlane (exactPlane A) x → OnSurface (exactMesh m) x → 115 * (u * M') + 9 / 4 * ((9 + 109 / s) * (u * M)) ≤ height (exactPlane B) x →
        Nearby ((9 + 109 / s) * (u * M) + 11 * (u * M')) (fun q => ∃ k ∈ ks, OnChain (k.1.map Rd.vec) k.2 q) x := by
  obtain ⟨cs, h1, h2, h3⟩ := C129_points h ver pk ko A m ok
  obtain ⟨cs', ess, g1, g2, -, -⟩ := FK.vertices_good h ver pk ko A B m ok hM hn hx
  rw [h1] at g1
  injection g1 with g1
  subst g1
  have hg : ∀ c ∈ cs, ∀ p ∈ c.v, Good u M' B p := by
    intro c hc p hp
    obtain ⟨es, -, -, -, k⟩ := FK.forall₂_right g2 c hc
    obtain ⟨e, -, -, k, -⟩ := FK.forall₂_right k p hp
    exact k
  have hM : 0 < M' := by linarith [ok.size]
  refine ⟨cs, h1, fun ks hks => ?_⟩
  generalize (9 + 109 / s) * (u * M) = R at h2 h3
  have fwd := FK.forall₂_right hks
  have bwd := FK.forall₂_right hks.flip
  constructor
  · rintro q ⟨k, hk, hq⟩
    obtain ⟨c, hc, hck⟩ := fwd k hk
    obtain ⟨y, ⟨hy, hyK⟩, hyq⟩ := (kept_near h ok.small.1 ok.small.2 hM hr hn (hg c hc) hck).1 q hq
    obtain ⟨x, ⟨hA, hS⟩, hxy⟩ := h2 y ⟨c, hc, hy⟩
    have hd := abs_le.mp (height_dist (pl := exactPlane B) hn x y)
    exact ⟨x, ⟨hA, hS, by linarith⟩, by linarith [dist3_triangle x y q]⟩
  · intro x hA hS hx
    obtain ⟨y, ⟨c, hc, hy⟩, hyx⟩ := h3 x hA hS
    obtain ⟨k, hk, hck⟩ := bwd c hc
    have hd := abs_le.mp (height_dist (pl := exactPlane B) hn y x)
    obtain ⟨q, hq, hqy⟩ := (kept_near h ok.small.1 ok.small.2 hM hr hn (hg c hc) hck).2 y hy (by linarith)
    exact ⟨q, ⟨k, hk, hq⟩, by linarith [dist3_triangle q y x]⟩

/-! The tetrahedron cut by the horizontal plane, and the section cut by the plane `x = 1/4`. -/

/-- the plane `x = 1/4` in double precision -/
noncomputable def wallF : Plane (Rd rnd53) := ⟨⟨⟨1 / 4⟩, ⟨0⟩, ⟨0⟩⟩, ⟨⟨1⟩, ⟨0⟩, ⟨0⟩⟩⟩

theorem FK.tetra_cross {e : ℕ × ℕ} {x : V3 ℝ} (he : CrossedEdge ground tetra e) (hx : CrossPoint ground tetra e x) :
    (e = (0, 1) ∧ x = ⟨1 / 2, 0, 0⟩) ∨ (e = (0, 2) ∧ x = ⟨0, 1 / 2, 0⟩) ∨ (e = (0, 3) ∧ x = ⟨-1 / 2, -1 / 2, 0⟩) := by
  obtain ⟨hlt, -, a', b', ha', hb', ho⟩ := he
  obtain ⟨a, b, ha, hb, hp, t, t0, t1, rfl⟩ := hx
  obtain rfl : a' = a := Option.some.inj (ha'.symm.trans ha)
  obtain rfl : b' = b := Option.some.inj (hb'.symm.trans hb)
  have hp : height ground _ = 0 := hp
  rw [RC.height_along] at hp
  obtain ⟨i, j⟩ := e
  simp only at ha hb hlt
  have hi : i < 4 := by
    obtain ⟨k, -⟩ := List.getElem?_eq_some_iff.mp ha
    exact k
  have hj : j < 4 := by
    obtain ⟨k, -⟩ := List.getElem?_eq_some_iff.mp hb
    exact k
  clear ha' hb'
  interval_cases i <;> interval_cases j <;> try omega
  all_goals
    simp only [tetra, List.getElem?_cons_succ, List.getElem?_cons_zero, Option.some.injEq] at ha hb
    subst ha hb
  all_goals
    first
      | (exfalso; norm_num [ground, height, inner3, vec3] at ho; done)
      | (have ht : t = 1 / 2 := by
           norm_num [ground, height, inner3, vec3] at hp
           linarith
         subst ht
         first
           | (left; refine ⟨rfl, ?_⟩; ext <;> norm_num [along, vec3]; done)
           | (right; left; refine ⟨rfl, ?_⟩; ext <;> norm_num [along, vec3]; done)
           | (right; right; refine ⟨rfl, ?_⟩; ext <;> norm_num [along, vec3]; done))

/-- three vertices of which one is in front of the plane -/
theorem FK.one_front {M : ℝ} (hu0 : 0 < u) (hM : 0 < M) (pl : Plane (Rd rnd)) {es : List (ℕ × ℕ)} {v : List (V3 (Rd rnd))} (hv : ∀ p ∈ v, Good u M pl p) (hnd : es.Nodup)
    (hlen : 3 ≤ es.length) (hes : ∀ e ∈ es, e = (0, 1) ∨ e = (0, 2) ∨ e = (0, 3)) (hR : List.Forall₂ (fun e p => front pl p = decide (e = (0, 1))) es v) :
    meetCount (exactPlane pl) (v.map Rd.vec) true = 2 := by
  rw [meetCount_front hu0 hM pl v hv]
  have hle : es.length ≤ 3 := by
    have : es ⊆ [(0, 1), (0, 2), (0, 3)] := by
      intro e he
      simpa using hes e he
    exact (List.subperm_of_subset hnd this).length_le
  match es, v, hR with
  | [e1, e2, e3], [p1, p2, p3], .cons r1 (.cons r2 (.cons r3 .nil)) =>
    have h1 := hes e1 (by simp)
    have h2 := hes e2 (by simp)
    have h3 := hes e3 (by simp)
    simp only [chainSegs, circuit, pairs, List.head?_cons, Option.toList_some, List.cons_append, List.nil_append]
    rcases h1 with rfl | rfl | rfl <;> rcases h2 with rfl | rfl | rfl <;> rcases h3 with rfl | rfl | rfl <;>
      first
        | (exfalso; simp at hnd; done)
        | simp [pairs, r1, r2, r3]
  | [], _, _ => simp at hlen
  | [_], _, _ => simp at hlen
  | [_, _], _, _ => simp at hlen
  | _ :: _ :: _ :: _ :: _, _, _ => simp at hle; omega

set_option maxHeartbeats 1000000 in
/-- The tetrahedron cut by the horizontal plane and by the wall `x = 1/4` in double precision: what is kept of the section comes within `10⁻¹²` of the point `(1/2, 0, 0)`, and no point
of it is more than `10⁻¹²` behind the wall. -/
theorem C149_witness (pk : ℕ → Picker) (ko : ℕ → KeyOrder) :
    ∃ cs ks, groundF.meshXsections .py3 pk ko tetraF = .ok cs ∧ List.Forall₂ (KeptR wallF) cs ks ∧
      (∃ k ∈ ks, k.2 = false ∧ ∃ q, OnChain (k.1.map Rd.vec) false q ∧ dist3 q ⟨1 / 2, 0, 0⟩ ≤ 1 / 10 ^ 12) ∧
      ∀ k ∈ ks, ∀ q, OnChain (k.1.map Rd.vec) k.2 q → 1 / 4 - 1 / 10 ^ 12 ≤ q.x := by
  have h' : Rounding rnd53 (1 / 2 ^ 53) := by simpa using rounding_rnd53
  have ok := FCh.tetra_slice pk ko
  have hr : Within 2 (Rd.vec wallF.r0) := by norm_num [Within, Rd.vec, wallF]
  have hn : Within (5 / 4) (Rd.vec wallF.n) := by norm_num [Within, Rd.vec, wallF]
  have hw : ∀ x : V3 ℝ, height (exactPlane wallF) x = x.x - 1 / 4 := by
    intro x
    simp only [height, inner3, vec3, exactPlane, wallF, Rd.vec]; ring
  have hx : ∀ e x, CrossedEdge (exactPlane groundF) (exactMesh tetraF) e → CrossPoint (exactPlane groundF) (exactMesh tetraF) e x →
      100 * (1 / 2 ^ 53 * 2) + 9 / 4 * ((9 + 109 / (1 / 2)) * (1 / 2 ^ 53 * 1)) ≤ |height (exactPlane wallF) x| := by
    intro e x he hx
    rw [hw]
    rcases FK.tetra_cross he hx with ⟨-, rfl⟩ | ⟨-, rfl⟩ | ⟨-, rfl⟩ <;> norm_num
  obtain ⟨cs, ess, g1, g2, g3, g4⟩ := FK.vertices_good h' .py3 pk ko groundF wallF tetraF ok (M' := 2) (by norm_num) hn hx
  have hcl := g4 tetra_closed
  have hex : ∀ c ∈ cs, ∃ k, KeptR wallF c k ∧ k.2 = false := by
    intro c hc
    obtain ⟨es, hes, -, k2, k3⟩ := FK.forall₂_right g2 c hc
    have hg : ∀ p ∈ c.v, Good (1 / 2 ^ 53) 2 wallF p := by
      intro p hp
      obtain ⟨e, -, -, k, -⟩ := FK.forall₂_right k3 p hp
      exact k
    have hnd : es.Nodup := (List.nodup_flatten.mp g3).1 es hes
    have hes' : ∀ e ∈ es, e = (0, 1) ∨ e = (0, 2) ∨ e = (0, 3) := by
      intro e he
      obtain ⟨p, -, k, -, x, hx1, -⟩ := FK.forall₂_right k3.flip e he
      rcases FK.tetra_cross k hx1 with ⟨h, -⟩ | ⟨h, -⟩ | ⟨h, -⟩ <;> simp [h]
    have hc2 := FK.one_front (by norm_num) (by norm_num) wallF hg hnd (k2 (hcl c hc)) hes' (k3.imp (by
      rintro e p ⟨he, -, x, hx1, hx2⟩
      have hd := abs_le.mp (height_dist (pl := exactPlane wallF) hn x (Rd.vec p))
      have hsm : (9 + 109 / (1 / 2)) * (1 / 2 ^ 53 * 1) ≤ (1 / 1000 : ℝ) := by norm_num
      rw [hw x] at hd
      rcases FK.tetra_cross he hx1 with ⟨rfl, rfl⟩ | ⟨rfl, rfl⟩ | ⟨rfl, rfl⟩
      · simp only [decide_true]
        rw [front_iff]
        norm_num at hd hx2 hsm ⊢
        linarith
      · rw [show decide (((0, 2) : ℕ × ℕ) = (0, 1)) = false by rfl, Bool.eq_false_iff, Ne, front_iff, not_lt]
        norm_num at hd hx2 hsm ⊢
        linarith
      · rw [show decide (((0, 3) : ℕ × ℕ) = (0, 1)) = false by rfl, Bool.eq_false_iff, Ne, front_iff, not_lt]
        norm_num at hd hx2 hsm ⊢
        linarith))
    obtain ⟨w, hw1, -⟩ := kept_closed h' (by norm_num) (by norm_num) (by norm_num : (0 : ℝ) < 2) c.v hr hn hg hc2
    exact ⟨(w, false), .inr (.inr ⟨by rw [hcl c hc]; exact hw1, rfl⟩), rfl⟩
  obtain ⟨ks, hks, hfl⟩ : ∃ ks, List.Forall₂ (KeptR wallF) cs ks ∧ ∀ k ∈ ks, k.2 = false := by
    clear g1 g2 g4 hcl
    induction cs with
    | nil => exact ⟨[], .nil, by simp⟩
    | cons c cs ih =>
      obtain ⟨k, hk, hf⟩ := hex c (by simp)
      obtain ⟨ks, h1, h2⟩ := ih fun c hc => hex c (List.mem_cons_of_mem _ hc)
      exact ⟨k :: ks, .cons hk h1, by simpa [hf] using h2⟩
  obtain ⟨cs', s1, s2⟩ := C149_sections h' .py3 pk ko groundF wallF tetraF ok (M' := 2) (by norm_num) hr hn hx
  rw [g1] at s1
  injection s1 with s1
  subst s1
  obtain ⟨s2, s3⟩ := s2 ks hks
  refine ⟨cs, ks, g1, hks, ?_, ?_⟩
  · have onP : OnPlane (exactPlane groundF) ⟨1 / 2, 0, 0⟩ := by
      show OnPlane ground ⟨1 / 2, 0, 0⟩
      norm_num [onPlane_iff, ground, height, inner3, vec3]
    have onS : OnSurface (exactMesh tetraF) ⟨1 / 2, 0, 0⟩ := by
      refine ⟨(0, 1, 2), by simp [exactMesh, tetraF], ⟨0, 0, 1⟩, ⟨1, 0, -1⟩, ⟨0, 1, -1⟩, rfl, rfl, rfl, 1 / 2, 0, by norm_num, by norm_num, by norm_num, ?_⟩
      ext <;> norm_num [exactMesh, tetraF, along, vec3, Rd.vec]
    obtain ⟨q, ⟨k, hk, hq⟩, hd⟩ := s3 ⟨1 / 2, 0, 0⟩ onP onS (by rw [hw]; norm_num)
    refine ⟨k, hk, hfl k hk, q, by rw [← hfl k hk]; exact hq, le_trans hd (by norm_num)⟩
  · intro k hk q hq
    obtain ⟨x, ⟨-, -, hx⟩, hd⟩ := s2 q ⟨k, hk, hq⟩
    have hq := abs_le.mp (height_dist (pl := exactPlane wallF) hn x q)
    rw [hw, hw] at hq
    rw [hw] at hx
    norm_num at hx hd ⊢
    linarith

end Blmath.Props
