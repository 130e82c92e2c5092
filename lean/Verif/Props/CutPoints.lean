import Verif.Props.Recut
import Verif.Proofs.Resampling
import Verif.Props.HalfSection
import Verif.Props.ConvexVertex

/-!
Property C148: the points of the polyline that `cut_by_plane` returns.
-/

namespace Blmath.Props
open Blmath.Geometry Blmath.Spec Blmath.Proofs Blmath.Proofs.SD RC

namespace CP

variable {pl : Plane ℝ}

/-- `q` is on a path through the points of the list -/
def On (l : List (V3 ℝ)) (q : V3 ℝ) : Prop := ∃ s ∈ pairs l, OnSegment s.1 s.2 q

theorem onChain_open {l : List (V3 ℝ)} {q : V3 ℝ} : OnChain l false q ↔ On l q := by
  simp [OnChain, On, chainSegs, circuit]

theorem on_nil {q : V3 ℝ} : ¬ On [] q := by simp [On, pairs]
theorem on_single {a q : V3 ℝ} : ¬ On [a] q := by simp [On, pairs]

theorem on_cons {a b : V3 ℝ} {l : List (V3 ℝ)} {q : V3 ℝ} : On (a :: b :: l) q ↔ OnSegment a b q ∨ On (b :: l) q := by
  simp [On, pairs]

theorem on_mid {xs ys : List (V3 ℝ)} {a b q : V3 ℝ} : On (xs ++ a :: b :: ys) q ↔ On (xs ++ [a]) q ∨ OnSegment a b q ∨ On (b :: ys) q := by
  unfold On
  rw [pairs_mid]
  simp only [List.mem_append, List.mem_cons, or_and_right, exists_or, exists_eq_left]

theorem on_join {xs ys : List (V3 ℝ)} {a b q : V3 ℝ} (ha : xs.getLast? = some a) (hb : ys.head? = some b) :
    On (xs ++ ys) q ↔ On xs q ∨ OnSegment a b q ∨ On ys q := by
  obtain ⟨xs, rfl⟩ := List.getLast?_eq_some_iff.mp ha
  obtain ⟨y, ys, rfl⟩ : ∃ y l, ys = y :: l := by
    cases ys with
    | nil => simp at hb
    | cons y l => exact ⟨y, l, rfl⟩
  have : y = b := by simpa using hb
  subst this
  rw [List.append_assoc, List.singleton_append, on_mid]

theorem on_reverse {l : List (V3 ℝ)} {q : V3 ℝ} : On l.reverse q ↔ On l q := by
  have key : ∀ l : List (V3 ℝ), On l.reverse q → On l q := by
    rintro l ⟨s, hs, h⟩
    rw [pairs_reverse, List.mem_reverse, List.mem_map] at hs
    obtain ⟨t, ht, rfl⟩ := hs
    exact ⟨t, ht, onSegment_swap _ _ _ h⟩
  exact ⟨key l, fun h => key l.reverse (by rwa [List.reverse_reverse])⟩

theorem on_sub {l : List (V3 ℝ)} {q : V3 ℝ} (h : On l q) : ∃ a ∈ l, ∃ b ∈ l, OnSegment a b q := by
  obtain ⟨s, hs, h⟩ := h
  obtain ⟨h1, h2⟩ := CV.pairs_mem hs
  exact ⟨s.1, h1, s.2, h2, h⟩

theorem on_neg {l : List (V3 ℝ)} {q : V3 ℝ} (h : On l q) (hl : ∀ p ∈ l, height pl p < 0) : height pl q < 0 := by
  obtain ⟨a, ha, b, hb, h⟩ := on_sub h
  exact RP.seg_neg h (hl a ha) (hl b hb)

theorem on_nonneg {l : List (V3 ℝ)} {q : V3 ℝ} (h : On l q) (hl : ∀ p ∈ l, 0 ≤ height pl p) : 0 ≤ height pl q := by
  obtain ⟨a, ha, b, hb, h⟩ := on_sub h
  exact RP.seg_nonneg h (hl a ha) (hl b hb)

/-- the upper part of a segment that rises through the plane -/
theorem upper {a b X q : V3 ℝ} (ha : height pl a ≤ 0) (hb : 0 < height pl b) (hX : OnPlane pl X) (hX' : OnSegment a b X) :
    OnSegment X b q ↔ OnSegment a b q ∧ 0 ≤ height pl q := by
  have h0 : height pl X = 0 := hX
  obtain ⟨s, s0, s1, rfl⟩ := hX'
  constructor
  · intro h
    refine ⟨?_, RP.seg_nonneg h h0.ge hb.le⟩
    obtain ⟨r, r0, r1, rfl⟩ := h
    refine ⟨s + r * (1 - s), by nlinarith, by nlinarith, ?_⟩
    ext <;> simp only [along, vec3] <;> ring
  · rintro ⟨⟨t, t0, t1, rfl⟩, h⟩
    rw [RC.height_along] at h h0
    exact (RP.seg_order a b s t s0 (by by_contra hc; nlinarith) t1).2

/-- a path that rises through the plane once -/
theorem up {xs ys : List (V3 ℝ)} {a b X : V3 ℝ} (h1 : ∀ s ∈ pairs (xs ++ [a]), ¬ Meets pl s) (h2 : ∀ s ∈ pairs (b :: ys), ¬ Meets pl s)
    (ha : height pl a ≤ 0) (hb : 0 < height pl b) (hX : OnPlane pl X) (hX' : OnSegment a b X) (q : V3 ℝ) :
    On (X :: b :: ys) q ↔ On (xs ++ a :: b :: ys) q ∧ 0 ≤ height pl q := by
  have low : On (xs ++ [a]) q → ¬ 0 ≤ height pl q := by
    intro h hq
    rcases ha.lt_or_eq with ha | ha
    · linarith [on_neg h fun p hp => (chain_front_end pl xs a h1).2.2 ha p hp]
    · rcases xs.eq_nil_or_concat with rfl | ⟨ys, y, rfl⟩
      · exact on_single h
      · refine h1 (y, a) ?_ ⟨fun h => by simp [ha] at h, fun h => by simp [ha] at h⟩
        rw [List.concat_eq_append, List.append_assoc, List.singleton_append, pairs_append_cons]
        simp [pairs]
  have high : On (b :: ys) q → 0 ≤ height pl q := fun h => on_nonneg h fun p hp => (chain_front pl ys b h2).1 hb.le p hp
  rw [on_cons, on_mid, upper ha hb hX hX']
  tauto

/-- a path that comes up to the plane at its end -/
theorem up_to {xs : List (V3 ℝ)} {a b : V3 ℝ} (h1 : ∀ s ∈ pairs (xs ++ [a]), ¬ Meets pl s) (ha : height pl a < 0) (hb : height pl b = 0) (q : V3 ℝ) :
    On (xs ++ [a, b]) q ∧ 0 ≤ height pl q ↔ q = b := by
  rw [on_mid]
  constructor
  · rintro ⟨h | h | h, hq⟩
    · linarith [on_neg h fun p hp => (chain_front_end pl xs a h1).2.2 ha p hp]
    · obtain ⟨t, t0, t1, rfl⟩ := h
      rw [RC.height_along, hb] at hq
      have : t = 1 := by nlinarith
      subst this
      ext <;> simp [along, vec3]
    · exact absurd h on_single
  · rintro rfl
    exact ⟨.inr (.inl (seg_right _ _)), hb.ge⟩

theorem onChain_rotate {v : List (V3 ℝ)} {q : V3 ℝ} (r : ℕ) : OnChain (v.rotate r) true q ↔ OnChain v true q := by
  unfold OnChain
  simp only [chainSegs_rotate, List.mem_rotate]

theorem onChain_closed {l : List (V3 ℝ)} {a q : V3 ℝ} (h : l.head? = some a) : OnChain l true q ↔ On (l ++ [a]) q := by
  simp [OnChain, On, chainSegs, circuit, h]

set_option maxHeartbeats 1000000 in
theorem cut_open (hu : UnitNormal pl) {v : List (V3 ℝ)} {p : Polyline ℝ} (h : (poly v false).cutByPlane pl = .ok p) (hf : ∃ q ∈ v, 0 < height pl q) :
    ∃ w, p = poly w false ∧ ∀ q, OnChain w false q ↔ OnChain v false q ∧ 0 ≤ height pl q := by
  have hc : meetCount pl v false = 1 := by
    by_contra hc
    rw [C39_count pl v hc] at h
    cases h
  obtain ⟨z, hz, hz'⟩ := hf
  obtain ⟨xs, a, b, ys, rfl, hm, h1, h2⟩ := Props.SD.one_meets pl v hc
  have hn : ¬ InPlane pl (a, b) := by
    intro hin
    have hs : (a, b) ∈ pairs (xs ++ a :: b :: ys) := by rw [pairs_mid]; simp
    have hv := two_of_inPlane pl (a, b) hin _ hs (by simpa [meetCount, chainSegs, circuit] using hc)
    rw [hv] at hz
    simp only [List.mem_cons, List.not_mem_nil, or_false] at hz
    rcases hz with rfl | rfl
    · exact hz'.ne' hin.1
    · exact hz'.ne' hin.2
  have ho := RC.only_of_one h1 h2
  obtain ⟨k1, k2⟩ := crossing_spec pl (a, b) hm hn
  generalize crossing pl (a, b) = X at k1 k2
  have r := cut_at hu (v := xs ++ a :: b :: ys) (i := xs.length) (by simp) (by simp) hm hn ho k1 k2
  have hm' := hm
  unfold Meets at hm'
  simp only at hm'
  have f1 := chain_front_end pl xs a h1
  have f2 := chain_front pl ys b h2
  have hmem : z ∈ xs ++ [a] ∨ z ∈ b :: ys := by
    rcases List.mem_append.mp hz with k | k
    · exact .inl (List.mem_append_left _ k)
    · rcases List.mem_cons.mp k with rfl | k
      · exact .inl (by simp)
      · exact .inr k
  have key : 0 < height pl a ∨ 0 < height pl b := by
    by_contra hk
    push Not at hk
    rcases hmem with hq | hq
    · linarith [f1.2.1 hk.1 z hq]
    · linarith [f2.2.1 hk.2 z hq]
  rcases lt_or_ge 0 (height pl b) with hb | hb
  · have ha : height pl a ≤ 0 := by
      by_contra hk
      exact hm'.1 ⟨not_le.mp hk, hb⟩
    refine ⟨X :: b :: ys, ?_, fun q => ?_⟩
    · rw [r.1 (by linarith)] at h
      injection h with h
      rw [← h]; simp
    · rw [onChain_open, onChain_open]
      exact up h1 h2 ha hb k1 k2 q
  · have ha : 0 < height pl a := key.resolve_right (not_lt.mpr hb)
    refine ⟨xs ++ [a] ++ [X], ?_, fun q => ?_⟩
    · rw [r.2 (by linarith)] at h
      injection h with h
      rw [← h, show xs ++ a :: b :: ys = (xs ++ [a]) ++ (b :: ys) by simp, List.take_left' (by simp)]
    · rw [onChain_open, onChain_open, ← on_reverse, ← on_reverse (l := xs ++ a :: b :: ys)]
      have hrev : ∀ {l : List (V3 ℝ)}, (∀ s ∈ pairs l, ¬ Meets pl s) → ∀ s ∈ pairs l.reverse, ¬ Meets pl s := by
        intro l hl s hs
        rw [pairs_reverse, List.mem_reverse, List.mem_map] at hs
        obtain ⟨t, ht, rfl⟩ := hs
        exact fun hm => hl t ht ((meets_swap pl t.2 t.1).mp hm)
      have := up (pl := pl) (xs := ys.reverse) (ys := xs.reverse) (a := b) (b := a) (X := X) (by simpa using hrev h2) (by simpa using hrev h1) hb ha k1 (onSegment_swap _ _ _ k2) q
      simpa using this

set_option maxHeartbeats 1000000 in
theorem cut_closed {v : List (V3 ℝ)} {p : Polyline ℝ} (h : (poly v true).cutByPlane pl = .ok p) (hf : ∃ q ∈ v, 0 < height pl q) :
    ∃ w, p = poly w false ∧ ∀ q, OnChain w false q ↔ OnChain v true q ∧ 0 ≤ height pl q := by
  have hc : meetCount pl v true = 2 := by
    by_contra hc
    rw [C40_count pl v hc] at h
    cases h
  have hb : ∃ q ∈ v, height pl q < 0 := by
    by_contra hb
    push Not at hb
    rw [C40_touching pl v hc hb] at h
    cases h
  obtain ⟨z, hz, hz'⟩ := hf
  obtain ⟨y, hy, hy'⟩ := hb
  have hnone := none_on_plane hc hz hz' hy hy'
  obtain ⟨r, F, B, f0, f1, b0, b1, S, E, e1, e2, e3, e4, e5, e6, e7, e8, e9, e10⟩ := C40_cut pl v hc ⟨y, hy, hy'⟩
  have hF : ∀ x ∈ F, 0 < height pl x := by
    intro x hx
    refine lt_of_le_of_ne (e2 x hx) (Ne.symm (hnone x ?_))
    rw [← List.mem_rotate (n := r), e1]; simp [hx]
  have m0 := hF _ (List.mem_of_head? e4)
  have m1 := hF _ (List.mem_of_getLast? e5)
  have n0 := e3 _ (List.mem_of_head? e6)
  have n1 := e3 _ (List.mem_of_getLast? e7)
  obtain ⟨X, rfl, hX, hX'⟩ : ∃ X, S = [X] ∧ OnPlane pl X ∧ OnSegment f0 b1 X := by
    rcases e8 with ⟨h, _⟩ | ⟨_, h⟩
    · linarith
    · exact h
  obtain ⟨Y, rfl, hY, hY'⟩ : ∃ X, E = [X] ∧ OnPlane pl X ∧ OnSegment f1 b0 X := by
    rcases e9 with ⟨h, _⟩ | ⟨_, h⟩
    · linarith
    · exact h
  refine ⟨_, by rw [e10] at h; injection h with h; exact h.symm, fun q => ?_⟩
  rw [← onChain_rotate r (v := v), e1, onChain_open, onChain_closed (a := f0) (by rw [List.head?_append, e4]; rfl)]
  have hlast : (F ++ B).getLast? = some b1 := by rw [List.getLast?_append, e7]; rfl
  rw [on_join hlast (b := f0) rfl, on_join e5 e6, List.append_assoc, on_join (a := X) (b := f0) rfl (by rw [List.head?_append, e4]; rfl),
    on_join e5 (b := Y) rfl]
  have u1 := upper (q := q) n1.le m0 hX (onSegment_swap _ _ _ hX')
  have u2 := upper (q := q) n0.le m1 hY (onSegment_swap _ _ _ hY')
  have sw : ∀ {c d : V3 ℝ}, OnSegment c d q ↔ OnSegment d c q := fun {c d} => ⟨onSegment_swap _ _ _, onSegment_swap _ _ _⟩
  have o1 : On B q → ¬ 0 ≤ height pl q := fun h hq => by linarith [on_neg h e3]
  have o2 : On F q → 0 ≤ height pl q := fun h => on_nonneg h e2
  have o3 := on_single (a := X) (q := q)
  have o4 := on_single (a := Y) (q := q)
  have o5 := on_single (a := f0) (q := q)
  rw [u1, sw (c := f1) (d := Y), u2, sw (c := b0) (d := f1)]
  tauto

theorem touch_open (hu : UnitNormal pl) {v : List (V3 ℝ)} {p : Polyline ℝ} (h : (poly v false).cutByPlane pl = .ok p) (hf : ∀ q ∈ v, height pl q ≤ 0)
    (hin : ∀ s ∈ chainSegs v false, ¬ InPlane pl s) :
    ∃ z, p = poly [z, z] false ∧ ∀ q, OnChain v false q ∧ 0 ≤ height pl q ↔ q = z := by
  have hc : meetCount pl v false = 1 := by
    by_contra hc
    rw [C39_count pl v hc] at h
    cases h
  obtain ⟨xs, a, b, ys, rfl, hm, h1, h2⟩ := Props.SD.one_meets pl v hc
  have hn : ¬ InPlane pl (a, b) := hin _ (by
    rw [show chainSegs (xs ++ a :: b :: ys) false = pairs (xs ++ a :: b :: ys) by simp [chainSegs, circuit], pairs_mid]; simp)
  have ho := RC.only_of_one h1 h2
  obtain ⟨k1, k2⟩ := crossing_spec pl (a, b) hm hn
  generalize crossing pl (a, b) = X at k1 k2
  have r := cut_at hu (v := xs ++ a :: b :: ys) (i := xs.length) (by simp) (by simp) hm hn ho k1 k2
  have hm' := hm
  unfold Meets at hm'
  simp only at hm'
  have ha := hf a (by simp)
  have hb := hf b (by simp)
  have hrev : ∀ {l : List (V3 ℝ)}, (∀ s ∈ pairs l, ¬ Meets pl s) → ∀ s ∈ pairs l.reverse, ¬ Meets pl s := by
    intro l hl s hs
    rw [pairs_reverse, List.mem_reverse, List.mem_map] at hs
    obtain ⟨t, ht, rfl⟩ := hs
    exact fun hm => hl t ht ((meets_swap pl t.2 t.1).mp hm)
  rcases hb.lt_or_eq with hb' | hb'
  · have ha' : height pl a = 0 := by
      by_contra hk
      exact hm'.2 ⟨lt_of_le_of_ne ha hk, hb'⟩
    obtain rfl : a = X := segment_unique hn ha' (seg_left _ _) k1 k2
    obtain rfl : xs = [] := by
      rcases xs.eq_nil_or_concat with h | ⟨ys, y, rfl⟩
      · exact h
      · refine absurd ?_ (h1 (y, a) ?_)
        · exact ⟨fun h => by simp [ha'] at h, fun h => by simp [ha'] at h⟩
        · rw [List.concat_eq_append, List.append_assoc, List.singleton_append, pairs_append_cons]
          simp [pairs]
    refine ⟨a, ?_, fun q => ?_⟩
    · rw [r.2 (by linarith)] at h
      injection h with h
      rw [← h]; simp
    · rw [onChain_open, ← on_reverse]
      have := up_to (pl := pl) (xs := ys.reverse) (a := b) (b := a) (by simpa using hrev h2) hb' ha' q
      simpa using this
  · have ha' : height pl a < 0 := lt_of_le_of_ne ha fun k => hn ⟨k, hb'⟩
    obtain rfl : b = X := segment_unique hn hb' (seg_right _ _) k1 k2
    obtain rfl : ys = [] := by
      cases ys with
      | nil => rfl
      | cons y ys =>
        refine absurd ?_ (h2 (b, y) (by simp [pairs]))
        exact ⟨fun h => by simp [hb'] at h, fun h => by simp [hb'] at h⟩
    refine ⟨b, ?_, fun q => ?_⟩
    · rw [r.1 (by linarith)] at h
      injection h with h
      rw [← h]; simp
    · rw [onChain_open]
      exact up_to h1 ha' hb' q

theorem touch_closed {v : List (V3 ℝ)} {p : Polyline ℝ} (h : (poly v true).cutByPlane pl = .ok p) (hf : ∀ q ∈ v, height pl q ≤ 0) :
    ∃ z, p = poly [z] false ∧ ∀ q, OnChain v true q ∧ 0 ≤ height pl q ↔ q = z := by
  classical
  have hc : meetCount pl v true = 2 := by
    by_contra hc
    rw [C40_count pl v hc] at h
    cases h
  have hb : ∃ q ∈ v, height pl q < 0 := by
    by_contra hb
    push Not at hb
    rw [C40_touching pl v hc hb] at h
    cases h
  obtain ⟨r, F, B, f0, f1, b0, b1, S, E, e1, e2, e3, e4, e5, e6, e7, e8, e9, e10⟩ := C40_cut pl v hc hb
  have hF : ∀ x ∈ F, height pl x = 0 := by
    intro x hx
    refine le_antisymm (hf x ?_) (e2 x hx)
    rw [← List.mem_rotate (n := r), e1]; simp [hx]
  have z0 := hF _ (List.mem_of_head? e4)
  have z1 := hF _ (List.mem_of_getLast? e5)
  obtain rfl : S = [] := by
    rcases e8 with ⟨_, h⟩ | ⟨h, _⟩
    · exact h
    · linarith
  obtain rfl : E = [] := by
    rcases e9 with ⟨_, h⟩ | ⟨h, _⟩
    · exact h
    · linarith
  obtain ⟨f, F', rfl⟩ : ∃ f l, F = f :: l := by
    cases F with
    | nil => simp at e4
    | cons f l => exact ⟨f, l, rfl⟩
  obtain rfl : f = f0 := by simpa using e4
  have hc' : meetCount pl (v.rotate r) true = 2 := by
    rw [← hc]
    unfold meetCount
    rw [chainSegs_rotate]
    exact (List.rotate_perm _ _).countP_eq _
  have hmeet : ∀ {c d : V3 ℝ}, height pl c = 0 ∨ height pl d = 0 → Meets pl (c, d) := by
    intro c d h
    constructor
    · rintro ⟨k1, k2⟩
      rcases h with h | h
      · exact k1.ne' h
      · exact k2.ne' h
    · rintro ⟨k1, k2⟩
      rcases h with h | h
      · exact k1.ne h
      · exact k2.ne h
  obtain ⟨b, B', rfl⟩ : ∃ f l, B = f :: l := by
    cases B with
    | nil => simp at e6
    | cons f l => exact ⟨f, l, rfl⟩
  obtain rfl : b = b0 := by simpa using e6
  have hlast : (f :: F' ++ b :: B').getLast? = some b1 := by rw [List.getLast?_append, e7]; rfl
  obtain rfl : F' = [] := by
    rw [e1] at hc'
    unfold meetCount at hc'
    rw [chainSegs_closed_eq _ f _ rfl hlast, pairs_append_cons, List.countP_append, List.countP_append, List.countP_singleton, decide_eq_true (hmeet (.inr z0))] at hc'
    have : ∀ (l : List (V3 ℝ)) (c d : V3 ℝ), (∀ x ∈ c :: l, height pl x = 0) → (pairs (c :: l ++ [d])).countP (fun s => decide (Meets pl s)) = l.length + 1 := by
      intro l
      induction l with
      | nil => intro c d h; simp [pairs, hmeet (.inl (h c (by simp)))]
      | cons y l ih =>
        intro c d h
        have := ih y d fun x hx => h x (List.mem_cons_of_mem _ hx)
        rw [List.cons_append, List.cons_append, pairs, List.countP_cons, decide_eq_true (hmeet (.inl (h c (by simp))))]
        rw [List.cons_append] at this
        rw [this]
        simp
    rw [this F' f b hF] at hc'
    have : F'.length = 0 := by simp at hc'; omega
    exact List.length_eq_zero_iff.mp this
  refine ⟨f, by rw [e10] at h; injection h with h; rw [← h]; rfl, fun q => ?_⟩
  rw [← onChain_rotate r (v := v), e1, onChain_closed (a := f) rfl, on_join hlast (b := f) rfl, on_join e5 e6]
  have up1 : ∀ {c : V3 ℝ}, height pl c < 0 → OnSegment f c q → 0 ≤ height pl q → q = f := by
    rintro c hcn ⟨t, t0, t1, rfl⟩ hq
    rw [RC.height_along, z0] at hq
    have : t = 0 := by nlinarith
    subst this
    ext <;> simp [along]
  obtain rfl : f = f1 := by simpa using e5
  constructor
  · rintro ⟨(h | h | h) | h | h, hq⟩
    · exact absurd h on_single
    · exact up1 (e3 b (by simp)) h hq
    · linarith [on_neg h e3]
    · exact up1 (e3 _ (List.mem_of_getLast? e7)) (onSegment_swap _ _ _ h) hq
    · exact absurd h on_single
  · rintro rfl
    exact ⟨.inl (.inr (.inl (seg_left _ _))), z0.ge⟩

theorem front_vertex {v : List (V3 ℝ)} {closed : Bool} {q : V3 ℝ} (h : OnChain v closed q) (hq : 0 < height pl q) : ∃ p ∈ v, 0 < height pl p := by
  by_contra hc
  push Not at hc
  exact absurd (HS.hull_le (CV.chain_hull h) hc) (not_le.mpr hq)

theorem behind {v : List (V3 ℝ)} {closed : Bool} {q : V3 ℝ} (h : OnChain v closed q) (hv : ∀ p ∈ v, height pl p < 0) : height pl q < 0 := by
  have := IS.hull_lt (w := pl.n) (k := inner3 pl.n pl.r0) (CV.chain_hull h) fun p hp => by
    have h3 := hv p hp
    rw [HS.height_inner] at h3; linarith
  rw [HS.height_inner]; linarith

end CP
open CP

/-- what is kept of one component of a cross-section when everything behind the plane is to be removed: nothing of a component behind the plane, all of a component in front
of it, and of any other component what `cut_by_plane` returns -/
def Kept (pl : Plane ℝ) (c : Section ℝ) (k : List (V3 ℝ) × Bool) : Prop :=
  ((∀ q ∈ c.v, height pl q < 0) ∧ k = ([], false)) ∨
  ((∀ q ∈ c.v, 0 ≤ height pl q) ∧ k = (c.v, c.closed)) ∨
  ((∃ q ∈ c.v, 0 < height pl q) ∧ (poly c.v c.closed).cutByPlane pl = .ok (poly k.1 false) ∧ k.2 = false)

/-- **C148.** Whenever `cut_by_plane` succeeds on a polyline with a vertex in front of the plane, the points of the polyline it returns are
exactly the points of the given one that are on or in front of the plane. -/
theorem C148_points (pl : Plane ℝ) (hu : UnitNormal pl) (v : List (V3 ℝ)) (closed : Bool) (p : Polyline ℝ)
    (h : (poly v closed).cutByPlane pl = .ok p) (hf : ∃ q ∈ v, 0 < height pl q) :
    ∃ w, p = poly w false ∧ ∀ q, OnChain w false q ↔ OnChain v closed q ∧ 0 ≤ height pl q := by
  cases closed with
  | false => exact cut_open hu h hf
  | true => exact cut_closed h hf

/-- **C148.** If nothing is in front of the plane (and no edge of an open polyline lies in it) `cut_by_plane` succeeds only if one point of the polyline is on
the plane, and returns that point: once for a closed polyline, twice for an open one. -/
theorem C148_touch (pl : Plane ℝ) (hu : UnitNormal pl) (v : List (V3 ℝ)) (closed : Bool) (p : Polyline ℝ)
    (h : (poly v closed).cutByPlane pl = .ok p) (hf : ∀ q ∈ v, height pl q ≤ 0) (hin : closed = false → ∀ s ∈ chainSegs v false, ¬ InPlane pl s) :
    ∃ z, p = poly (if closed then [z] else [z, z]) false ∧ ∀ q, OnChain v closed q ∧ 0 ≤ height pl q ↔ q = z := by
  cases closed with
  | false => exact touch_open hu h hf (hin rfl)
  | true => exact touch_closed h hf

/-- **C148.** Slicing a mesh with one plane and removing from every component what is behind another plane leaves exactly the points of the surface on the first plane that
are on or in front of the second. -/
theorem C148_sections (ver : PyVer) (pk : ℕ → Picker) (ko : ℕ → KeyOrder) (A B : Plane ℝ) (m : Mesh ℝ)
    (hv : ValidFaces m) (hp : ∀ f ∈ m.f, ProperFace f) (hoff : ∀ p ∈ m.v, ¬ OnPlane A p)
    (hman : EdgeManifold m) (hdis : m.f.Pairwise fun f g => ¬ SameCorners f g) (hsep : ClosedMesh m ∨ CrossingsApart A m) (hu : UnitNormal B) :
    ∃ cs, A.meshXsections ver pk ko m = .ok cs ∧ ∀ ks, List.Forall₂ (Kept B) cs ks →
      ∀ q, (∃ k ∈ ks, OnChain k.1 k.2 q) ↔ OnPlane A q ∧ OnSurface m q ∧ 0 ≤ height B q := by
  obtain ⟨cs, h1, h2⟩ := C127_points ver pk ko A m hv hp hoff hman hdis hsep
  refine ⟨cs, h1, fun ks hk q => ?_⟩
  rw [← and_assoc, ← h2]
  clear h1 h2
  have one : ∀ c k, Kept B c k → (OnChain k.1 k.2 q ↔ OnChain c.v c.closed q ∧ 0 ≤ height B q) := by
    rintro c ⟨w, cl⟩ (⟨hb, e⟩ | ⟨hf, e⟩ | ⟨hf, hc, e⟩)
    · cases e
      constructor
      · rintro ⟨s, hs, -⟩; simp [chainSegs, circuit, pairs] at hs
      · rintro ⟨h, h0⟩; exact absurd (behind h hb) (not_lt.mpr h0)
    · cases e
      exact ⟨fun h => ⟨h, HS.hull_ge (CV.chain_hull h) hf⟩, fun h => h.1⟩
    · simp only at e hc
      subst e
      obtain ⟨w', e, h⟩ := C148_points B hu c.v c.closed _ hc hf
      have : w = w' := by
        have := congrArg Polyline.v e
        simpa [poly] using this
      subst this
      exact h q
  induction hk with
  | nil => simp
  | cons h _ ih =>
    rw [List.exists_mem_cons_iff, List.exists_mem_cons_iff, or_and_right, one _ _ h]
    exact or_congr Iff.rfl ih

/-- **C148.** The half section of a convex solid (C147) consists of the points of its surface on one plane and in front of the other. -/
theorem C148_half (ver : PyVer) (pk : ℕ → Picker) (ko : ℕ → KeyOrder) (A B : Plane ℝ) (m : Mesh ℝ)
    (hn : A.n ≠ zero3) (hv : ValidFaces m) (hp : ∀ f ∈ m.f, ProperFace f) (hoff : ∀ p ∈ m.v, ¬ OnPlane A p)
    (hcl : ClosedMesh m) (hcv : ConvexMesh m) (he : ∃ e, CrossedEdge A m e) (hu : UnitNormal B)
    (hf : ∃ q, OnPlane A q ∧ InHull3 m.v q ∧ 0 < height B q) (hb : ∃ q, OnPlane A q ∧ InHull3 m.v q ∧ height B q < 0)
    (hg : ∀ e q, CrossedEdge A m e → CrossPoint A m e q → ¬ OnPlane B q) :
    ∃ v w, (∀ nbh, A.meshXsection ver pk ko m nbh = .ok (some ⟨v, true⟩)) ∧ (poly v true).cutByPlane B = .ok (poly w false) ∧
      ∀ q, OnChain w false q ↔ OnPlane A q ∧ OnSurface m q ∧ 0 ≤ height B q := by
  obtain ⟨v, F, X, Y, h1, h2, -, h4, h5, -⟩ := C147_half ver pk ko A B m hn hv hp hoff hcl hcv he hf hb hg
  refine ⟨v, _, h1, h2, ?_⟩
  obtain ⟨v', k1, -, -⟩ := (C131_one_loop ver pk ko A m hn hv hp hoff hcl hcv).2 he
  have e : v' = v := by
    have := (C131_no_choice ver pk ko A m v' k1 none).2
    rw [h1 none] at this
    injection this with this
    injection this with this
    injection this with this
    exact this.symm
  subst e
  obtain ⟨cs, h6, h7⟩ := C148_sections ver pk ko A B m hv hp hoff (CX.manifold_of_closed hcl) hcl.2 (.inl hcl) hu
  rw [k1] at h6
  injection h6 with h6
  subst h6
  have hfr : ∃ q ∈ v', 0 < height B q := by
    obtain ⟨q, a, b, c⟩ := hf
    obtain ⟨v'', k2, k3⟩ := C131_solid ver pk ko A m hn hv hp hoff hcl hcv he
    rw [k1] at k2
    cases k2
    by_contra hc
    push Not at hc
    exact absurd (HS.hull_le ((k3 q).mpr ⟨a, b⟩) hc) (not_le.mpr c)
  have := h7 [(X :: F ++ [Y], false)] (.cons (.inr (.inr ⟨hfr, h2, rfl⟩)) .nil)
  intro q
  rw [← this]
  simp

/-- a concrete case: the octahedron cut by the plane x + 2y + 3z = 0, and the section by 3x + 4z = 0; an open polyline passing through the plane
z = 0; and one that only ends on it -/
theorem C148_witness (pk : ℕ → Picker) (ko : ℕ → KeyOrder) :
    (∃ v w, slant.meshXsection .py3 pk ko octa none = .ok (some ⟨v, true⟩) ∧
      (poly v true).cutByPlane ⟨⟨0, 0, 0⟩, ⟨3 / 5, 0, 4 / 5⟩⟩ = .ok (poly w false) ∧ OnChain w false ⟨3 / 4, 0, -1 / 4⟩ ∧ ¬ OnChain w false ⟨-3 / 4, 0, 1 / 4⟩) ∧
    (poly [⟨0, 0, 1⟩, ⟨0, 0, -1⟩, ⟨1, 0, -2⟩] false).cutByPlane ⟨⟨0, 0, 0⟩, ⟨0, 0, 1⟩⟩ = .ok (poly [⟨0, 0, 1⟩, (⟨0, 0, 0⟩ : V3 ℝ)] false) ∧
    (poly [⟨1, 0, -1⟩, ⟨0, 0, -1⟩, ⟨0, 0, 0⟩] false).cutByPlane ⟨⟨0, 0, 0⟩, ⟨0, 0, 1⟩⟩ = .ok (poly [⟨0, 0, 0⟩, (⟨0, 0, 0⟩ : V3 ℝ)] false) := by
  have hU : UnitNormal ⟨⟨0, 0, 0⟩, ⟨0, 0, 1⟩⟩ := by
    show len3 _ = 1
    simp [len3]
  have hh : ∀ q : V3 ℝ, height ⟨⟨0, 0, 0⟩, ⟨0, 0, 1⟩⟩ q = q.z := by
    intro q; simp only [height, inner3, vec3]; ring
  refine ⟨?_, ?_, ?_⟩
  · obtain ⟨hn, hv, hp, hoff, hcl, hcv, he, -⟩ := C131_witness pk ko
    have on : ∀ q, OnPlane slant q ↔ q.x + 2 * q.y + 3 * q.z = 0 := by
      intro q
      rw [onPlane_iff]
      simp only [slant, height, inner3, vec3]
      constructor <;> intro h <;> linarith
    have hB : ∀ q, height ⟨⟨0, 0, 0⟩, ⟨3 / 5, 0, 4 / 5⟩⟩ q = (3 * q.x + 4 * q.z) / 5 := by
      intro q
      simp only [height, inner3, vec3]
      ring
    have hBu : UnitNormal ⟨⟨0, 0, 0⟩, ⟨3 / 5, 0, 4 / 5⟩⟩ := by
      show len3 _ = 1
      rw [len3, Real.sqrt_eq_one]
      norm_num [inner3]
    obtain ⟨v, w, h1, h2, h3⟩ := C148_half .py3 pk ko slant ⟨⟨0, 0, 0⟩, ⟨3 / 5, 0, 4 / 5⟩⟩ octa hn hv hp hoff hcl hcv ⟨_, he⟩ hBu
      ⟨⟨2 / 3, -1 / 3, 0⟩, by rw [on]; norm_num, ⟨[2 / 3, 0, 0, 1 / 3, 0, 0], ⟨rfl, by norm_num, by norm_num⟩, by norm_num [octa, rdot], by norm_num [octa, rdot], by norm_num [octa, rdot]⟩, by
        rw [hB]; norm_num⟩
      ⟨⟨-2 / 3, 1 / 3, 0⟩, by rw [on]; norm_num, ⟨[0, 2 / 3, 1 / 3, 0, 0, 0], ⟨rfl, by norm_num, by norm_num⟩, by norm_num [octa, rdot], by norm_num [octa, rdot], by norm_num [octa, rdot]⟩, by
        rw [hB]; norm_num⟩ (by
        rintro ⟨i, j⟩ q ⟨-, hed, h⟩ ⟨a, b, ha, hb, hq, t, -, -, rfl⟩ hq'
        rw [on] at hq
        have hq'' : height ⟨⟨0, 0, 0⟩, ⟨3 / 5, 0, 4 / 5⟩⟩ (along a t (vec3 a b)) = 0 := hq'
        rw [hB] at hq''
        obtain ⟨a', b', ha', hb', hop⟩ := h
        simp only [ha, hb, Option.some.injEq] at ha' hb'
        subst ha' hb'
        have hi : i < 6 := by have := (List.getElem?_eq_some_iff.mp ha).1; simpa [octa] using this
        have hj : j < 6 := by have := (List.getElem?_eq_some_iff.mp hb).1; simpa [octa] using this
        interval_cases i <;> interval_cases j <;> simp [octa] at ha hb <;> subst ha hb <;> simp [along, vec3] at hq hq'' <;>
          norm_num [slant, height, inner3, vec3] at hop <;>
          first | nlinarith | (exfalso; revert hed; simp [octa, hasEdge, corner]))
    refine ⟨v, w, h1 none, h2, (h3 _).mpr ⟨by rw [on]; norm_num, ⟨(0, 3, 5), by simp [octa], ?_⟩, by rw [hB]; norm_num⟩, fun h => ?_⟩
    · refine ⟨⟨1, 0, 0⟩, ⟨0, -1, 0⟩, ⟨0, 0, -1⟩, rfl, rfl, rfl, 0, 1 / 4, by norm_num, by norm_num, by norm_num, ?_⟩
      ext <;> norm_num [along, vec3]
    · have := ((h3 _).mp h).2.2
      rw [hB] at this
      norm_num at this
  · refine (cut_at hU (v := [⟨0, 0, 1⟩, ⟨0, 0, -1⟩, ⟨1, 0, -2⟩]) (i := 0) (a := ⟨0, 0, 1⟩) (b := ⟨0, 0, -1⟩) (X := ⟨0, 0, 0⟩) rfl rfl ?_ ?_ ?_ ?_ ?_).2 ?_
    · refine (meets_of_opp ?_).1
      rw [hh, hh]; norm_num
    · rintro ⟨h, -⟩
      rw [hh] at h; norm_num at h
    · exact RC.only_of_one (xs := []) (by simp [pairs]) (by simp [pairs, Meets, hh])
    · rw [onPlane_iff, hh]
    · exact ⟨1 / 2, by norm_num, by norm_num, by ext <;> norm_num [along, vec3]⟩
    · rw [hh, hh]; norm_num
  · refine (cut_at hU (v := [⟨1, 0, -1⟩, ⟨0, 0, -1⟩, ⟨0, 0, 0⟩]) (i := 1) (a := ⟨0, 0, -1⟩) (b := ⟨0, 0, 0⟩) (X := ⟨0, 0, 0⟩) rfl rfl ?_ ?_ ?_ ?_ ?_).1 ?_
    · simp [Meets, hh]
    · rintro ⟨h, -⟩
      rw [hh] at h; norm_num at h
    · exact RC.only_of_one (xs := [⟨1, 0, -1⟩]) (ys := []) (by simp [pairs, Meets, hh]) (by simp [pairs])
    · rw [onPlane_iff, hh]
    · exact seg_right _ _
    · rw [hh, hh]; norm_num

end Blmath.Props
