import Verif.Proofs.Extreme
import Verif.Props.Convexify
import Verif.Props.Polyline

/-!
Property C128: the convex hull as a tape measure.
-/

namespace Blmath.Props
open Blmath.Geometry Blmath.Spec Blmath.Proofs Blmath.TM

namespace TM

theorem turn_neg (n a b c : V3 ℝ) : turn (scale3 (-1) n) a b c = -turn n a b c := by
  simp only [Blmath.TM.turn, det3, inner3, cross3, vec3, scale3]; ring

theorem inner_neg (n q : V3 ℝ) : inner3 (scale3 (-1) n) q = -inner3 n q := by
  simp only [inner3, scale3]; ring

theorem neg_ne {n : V3 ℝ} (hn : n ≠ zero3) : scale3 (-1) n ≠ zero3 := by
  intro h
  apply hn
  have hx := congrArg V3.x h
  have hy := congrArg V3.y h
  have hz := congrArg V3.z h
  simp only [scale3, zero3] at hx hy hz
  ext <;> simp only [zero3] <;> linarith

/-- the length of the way round does not depend on the direction in which `n` points -/
theorem hull_le {n : V3 ℝ} {k : ℝ} {v Q : List (V3 ℝ)} (hn : n ≠ zero3) (hpl : ∀ p ∈ v, inner3 n p = k) (hsub : ∀ q ∈ Q, q ∈ v)
    (h : IsHull3 n v Q) {W : List (V3 ℝ)} (hW : ∀ q ∈ Q, q ∈ W) : tour Q ≤ tour W := by
  have hc : Corners Q := h.minimal
  rcases h.oneWay with hl | hl
  · have hr := hc.round hn (fun q hq => hpl q (hsub q hq)) (fun e he p hp => hl e he p (hsub p hp))
    exact tour_le hn Q (fun q hq => hpl q (hsub q hq)) hr.nodup (fun _ _ _ hs => triples (turning n) hr hs) W hW
  · have hp' : ∀ q ∈ Q, inner3 (scale3 (-1) n) q = -k := fun q hq => by rw [inner_neg, hpl q (hsub q hq)]
    have hr := hc.round (neg_ne hn) hp' (fun e he p hp => by
      rw [turn_neg]; exact neg_nonneg.mpr (hl e he p (hsub p hp)))
    exact tour_le (neg_ne hn) Q hp' hr.nodup (fun _ _ _ hs => triples (turning _) hr hs) W hW

/-- a point of the plane in space -/
def emb (p : ℝ × ℝ) : V3 ℝ := ⟨p.1, p.2, 0⟩

theorem drop_emb (qs : List (ℝ × ℝ)) : (qs.map emb).map (dropDim 2) = qs := by
  rw [List.map_map]
  conv_rhs => rw [← List.map_id qs]
  rfl

theorem inHull_emb (qs : List (ℝ × ℝ)) (p : ℝ × ℝ) : InHull2 qs p ↔ InHull3 (qs.map emb) (emb p) := by
  have h := inHull_drop (n := ⟨0, 0, 1⟩) (c := 0) (d := 2) (by simp [comp]) (qs := qs.map emb) (p := emb p)
    (by intro q hq; obtain ⟨a, -, rfl⟩ := List.mem_map.mp hq; simp [inner3, emb]) (by simp [inner3, emb])
  rw [drop_emb] at h
  exact h

theorem ez_ne : (⟨0, 0, 1⟩ : V3 ℝ) ≠ zero3 := by
  intro h
  have := congrArg V3.z h
  simp [zero3] at this

theorem round2 {ps qs : List (ℝ × ℝ)} (h : IsHull2 ps qs) (hs : ∀ q ∈ qs, q ∈ ps) :
    Corners (qs.map emb) ∧ Round (turn ⟨0, 0, 1⟩) (qs.map emb) := by
  have hc : Corners (qs.map emb) := by
    intro k q hk hin
    rw [List.getElem?_map] at hk
    obtain ⟨a, ha, rfl⟩ := Option.map_eq_some_iff.mp hk
    rw [List.eraseIdx_map, ← inHull_emb] at hin
    exact h.minimal k a ha hin
  refine ⟨hc, hc.round (k := 0) ez_ne ?_ ?_⟩
  · intro q hq
    obtain ⟨a, -, rfl⟩ := List.mem_map.mp hq
    simp [inner3, emb]
  · intro e he p hp
    obtain ⟨p, hq, rfl⟩ := List.mem_map.mp hp
    unfold cyclicPairs at he
    rw [← List.map_rotate, List.zip_map] at he
    obtain ⟨e, hf, rfl⟩ := List.mem_map.mp he
    have := h.leftTurns e hf p (hs p hq)
    have e2 : turn ⟨0, 0, 1⟩ (emb e.1) (emb e.2) (emb p) = area2 e.1 e.2 p := by
      simp only [Blmath.TM.turn, det3, inner3, cross3, vec3, emb, area2]; ring
    exact e2 ▸ this

/-- the corners of a hull in the plane, and their order but for the start, are determined -/
theorem unique2 {ps ps' qs qs' : List (ℝ × ℝ)} (h : IsHull2 ps qs) (h' : IsHull2 ps' qs') (hs : ∀ q ∈ qs, q ∈ ps) (hs' : ∀ q ∈ qs', q ∈ ps')
    (h1 : ∀ q ∈ qs, InHull2 qs' q) (h2 : ∀ q ∈ qs', InHull2 qs q) : qs ~r qs' := by
  obtain ⟨c1, r1⟩ := round2 h hs
  obtain ⟨c2, r2⟩ := round2 h' hs'
  have e1 : ∀ q ∈ qs.map emb, InHull3 (qs'.map emb) q := by
    intro q hq
    obtain ⟨a, ha, rfl⟩ := List.mem_map.mp hq
    exact (inHull_emb _ _).mp (h1 a ha)
  have e2 : ∀ q ∈ qs'.map emb, InHull3 (qs.map emb) q := by
    intro q hq
    obtain ⟨a, ha, rfl⟩ := List.mem_map.mp hq
    exact (inHull_emb _ _).mp (h2 a ha)
  have := unique_round (turning _) r1 r2 fun p => ⟨corners_unique c1 e1 e2 p, corners_unique c2 e2 e1 p⟩
  have := this.map (dropDim 2)
  rwa [drop_emb, drop_emb] at this

theorem drop_inj {n : V3 ℝ} {c : ℝ} {d : ℕ} (hd : comp d n ≠ 0) {p q : V3 ℝ} (hp : inner3 n p = c) (hq : inner3 n q = c)
    (h : dropDim d p = dropDim d q) : p = q := by
  simp only [inner3] at hp hq
  unfold comp at hd
  unfold dropDim at h
  by_cases h0 : d = 0
  · subst h0
    simp only [if_true] at hd
    simp only [if_true, Prod.mk.injEq] at h
    have : p.x = q.x := mul_left_cancel₀ hd (by rw [h.1, h.2] at hp; linarith)
    ext <;> [exact this; exact h.1; exact h.2]
  · by_cases h1 : d = 1
    · subst h1
      simp only [if_true, one_ne_zero, if_false] at hd
      simp only [one_ne_zero, if_false, if_true, Prod.mk.injEq] at h
      have : p.y = q.y := mul_left_cancel₀ hd (by rw [h.1, h.2] at hp; linarith)
      ext <;> [exact h.1; exact this; exact h.2]
    · simp only [if_neg h0, if_neg h1] at hd
      simp only [if_neg h0, if_neg h1, Prod.mk.injEq] at h
      have : p.z = q.z := mul_left_cancel₀ hd (by rw [h.1, h.2] at hp; linarith)
      ext <;> [exact h.1; exact h.2; exact this]

theorem rotated_of_map {γ δ : Type} {f : γ → δ} {l m : List γ} (hf : ∀ a ∈ l, ∀ b ∈ m, f a = f b → a = b) (h : l.map f ~r m.map f) : l ~r m := by
  obtain ⟨k, hk⟩ := h
  refine ⟨k, ?_⟩
  rw [← List.map_rotate] at hk
  have hf' : ∀ a ∈ l.rotate k, ∀ b ∈ m, f a = f b → a = b := fun a ha => hf a (List.mem_rotate.mp ha)
  revert hk hf'
  generalize l.rotate k = l'
  clear * -
  induction l' generalizing m with
  | nil => intro hk _; simpa using hk.symm
  | cons a l' ih =>
    intro hk hf'
    cases m with
    | nil => simp at hk
    | cons b m =>
      simp only [List.map_cons, List.cons.injEq] at hk
      rw [hf' a (by simp) b (by simp) hk.1, ih hk.2 (fun a ha b hb => hf' a (by simp [ha]) b (by simp [hb]))]

theorem open_le (v : List (V3 ℝ)) (closed : Bool) : pathLength (circuit v closed) ≤ tour v := by
  cases closed with
  | true => exact (tour_eq v).le
  | false =>
    have e : circuit v false = v := by simp [circuit]
    rw [e]
    rw [← tour_eq]
    cases v with
    | nil => simp [circuit, pathLength, pairs]
    | cons a l =>
      have : ∀ (l : List (V3 ℝ)) (a z : V3 ℝ), pathLength (a :: l) ≤ pathLength (a :: l ++ [z]) := by
        intro l
        induction l with
        | nil => intro a z; simpa [pathLength, pairs] using TM.dist3_nonneg a z
        | cons b l ih =>
          intro a z
          have := ih b z
          unfold pathLength at this ⊢
          simp only [List.cons_append, pairs, List.map_cons, List.sum_cons] at this ⊢
          linarith
      simpa [circuit] using this l a a

theorem tour_le_twice (v : List (V3 ℝ)) : tour v ≤ 2 * pathLength v := by
  cases v with
  | nil => simp [tour, pathLength, pairs]
  | cons a l =>
    have : ∀ (l : List (V3 ℝ)) (a z : V3 ℝ), walk a l z ≤ pathLength (a :: l) + (dist3 a z + pathLength (a :: l)) := by
      intro l
      induction l with
      | nil => intro a z; simp [walk, pathLength, pairs]
      | cons b l ih =>
        intro a z
        have h := ih b z
        have ht := dist3_triangle b a z
        rw [dist3_comm b a] at ht
        have e : pathLength (a :: b :: l) = dist3 a b + pathLength (b :: l) := by simp [pathLength, pairs]
        rw [e]
        simp only [walk]
        linarith
    have h := this l a a
    rw [TM.dist3_self] at h
    simp only [tour]
    linarith

theorem tour_contract {f : V3 ℝ → V3 ℝ} (hf : ∀ a b, dist3 (f a) (f b) ≤ dist3 a b) (v : List (V3 ℝ)) : tour (v.map f) ≤ tour v := by
  have : ∀ (l : List (V3 ℝ)) (a z : V3 ℝ), walk (f a) (l.map f) (f z) ≤ walk a l z := by
    intro l
    induction l with
    | nil => intro a z; exact hf a z
    | cons b l ih => intro a z; exact add_le_add (hf a b) (ih b z)
  cases v with
  | nil => exact le_rfl
  | cons a l => exact this l a a

/-- moving along `m` onto a plane brings points no further apart -/
theorem flat_contract {m : V3 ℝ} (hm : len3 m = 1) (v : List (V3 ℝ)) (p q : V3 ℝ) : dist3 (flatAt m v p) (flatAt m v q) ≤ dist3 p q := by
  have h1 : m.x ^ 2 + m.y ^ 2 + m.z ^ 2 = 1 := by rw [← len3_sq, hm]; norm_num
  unfold dist3
  refine Real.sqrt_le_sqrt ?_
  simp only [vec3, flatAt, along, inner3]
  nlinarith [sq_nonneg (m.x * (q.x - p.x) + m.y * (q.y - p.y) + m.z * (q.z - p.z))]

end TM

/-- **C128.** The convex hull of points of a plane is a shortest closed curve through its corners: any closed polyline that passes all of
them, in whatever order, and wherever else it goes in space, is at least as long. -/
theorem C128_shortest {n : V3 ℝ} {c : ℝ} {v Q : List (V3 ℝ)} (hn : n ≠ zero3) (hpl : ∀ p ∈ v, inner3 n p = c) (hsub : ∀ q ∈ Q, q ∈ v)
    (h : IsHull3 n v Q) (W : List (V3 ℝ)) (hW : ∀ q ∈ Q, q ∈ W) :
    ∃ L L', (poly Q true).totalLength = .ok L ∧ (poly W true).totalLength = .ok L' ∧ L ≤ L' := by
  refine ⟨_, _, (C35_lengths Q true).2, (C35_lengths W true).2, ?_⟩
  rw [tour_eq, tour_eq]
  exact TM.hull_le hn hpl hsub h hW

/-- **C128.** Convexifying a closed polyline of a plane never makes it longer.  An open one becomes at most twice as long (and no longer than
it would be if closed). -/
theorem C128_convexify (env : HullEnv ℝ) (v : List (V3 ℝ)) (closed want : Bool) (na : NormalArg ℝ) (n : V3 ℝ) (c : ℝ)
    (hv : 2 ≤ v.length) (hn : UsesNormal env v na n) (hn0 : n ≠ zero3) (hpl : ∀ p ∈ v, inner3 n p = c) (idx : List ℕ)
    (hh : env.hull (v.map (dropDim (argmax3 (n.map npAbs)))) = .ok idx)
    (hs : HullSpec (v.map (dropDim (argmax3 (n.map npAbs)))) idx) :
    ∃ p i L L', convexify env (poly v closed) false want na = .ok (p, i) ∧ p.totalLength = .ok L ∧
      (poly v closed).totalLength = .ok L' ∧ (closed = true → L ≤ L') ∧ L ≤ 2 * L' ∧
      ∃ L₂, (poly v true).totalLength = .ok L₂ ∧ L ≤ L₂ := by
  obtain ⟨qs, h1, hp, h3⟩ := C57_planar env v closed want na n c hv hn hn0 hpl idx hh hs
  have hle : tour qs ≤ tour v := TM.hull_le hn0 hpl (picks_mem hp) h3 (picks_mem hp)
  have hL := (TM.open_le qs closed).trans hle
  refine ⟨_, _, _, _, h1, (C35_lengths qs closed).2, (C35_lengths v closed).2, ?_, ?_, _, (C35_lengths v true).2, ?_⟩
  · rintro rfl
    rw [tour_eq v]; exact hL
  · cases closed with
    | true =>
      rw [tour_eq v]
      have := tour_nonneg v
      linarith
    | false =>
      have := TM.tour_le_twice v
      have e : circuit v false = v := by simp [circuit]
      rw [e]
      linarith
  · rw [tour_eq v]; exact hL

/-- **C128.** The same for the flattened variant, for any points of space: flattening and convexifying a closed polyline never makes it
longer. -/
theorem C128_flatten (env : HullEnv ℝ) (hcv : RotationVectorSpec env.cvRodrigues)
    (hinv : ∀ a b, env.inv a = .ok b → a * b = 1) (hinv' : ∀ a, a.det ≠ 0 → ∃ b, env.inv a = .ok b)
    (hhull : ∀ ps idx, env.hull ps = .ok idx → HullSpec ps idx)
    (v : List (V3 ℝ)) (closed want : Bool) (n : V3 ℝ) (hv : 2 ≤ v.length) (hn : len3 n = 1)
    (p : Polyline ℝ) (i : Option (List ℕ)) (hc : convexify env (poly v closed) true want (.seq n) = .ok (p, i)) :
    ∃ L L', p.totalLength = .ok L ∧ (poly v closed).totalLength = .ok L' ∧ (closed = true → L ≤ L') ∧ L ≤ 2 * L' ∧
      ∃ L₂, (poly v true).totalLength = .ok L₂ ∧ L ≤ L₂ := by
  obtain ⟨m, π, hm, -, -, -, herr, hok⟩ := C57_flatten env hcv hinv hinv' hhull v closed want n hv hn
  cases hidx : env.hull (v.map π) with
  | error e => rw [herr e hidx] at hc; cases hc
  | ok idx =>
    obtain ⟨qs, hp, h1, h3⟩ := hok idx hidx
    rw [h1] at hc
    cases hc
    have hm0 : m ≠ zero3 := by
      rintro rfl
      simp [len3, zero3] at hm
    have hmm : inner3 m m = 1 := by rw [← len3_mul_self, hm]; norm_num
    have hpl : ∀ p ∈ v.map (flatAt m v), inner3 m p = inner3 m (centroid v) := by
      intro p hp
      obtain ⟨p, -, rfl⟩ := List.mem_map.mp hp
      have e : inner3 m (flatAt m v p) = inner3 m p + (inner3 m (centroid v) - inner3 m p) * inner3 m m := by
        simp only [flatAt, along, inner3]; ring
      rw [e, hmm]; ring
    have hsub : ∀ q ∈ qs.map (flatAt m v), q ∈ v.map (flatAt m v) := picks_mem (picks_map _ hp)
    have hle := (TM.hull_le hm0 hpl hsub h3 hsub).trans (TM.tour_contract (TM.flat_contract hm v) v)
    have hL := (TM.open_le _ closed).trans hle
    refine ⟨_, _, (C35_lengths _ closed).2, (C35_lengths v closed).2, ?_, ?_, _, (C35_lengths v true).2, ?_⟩
    · rintro rfl
      rw [tour_eq v]; exact hL
    · cases closed with
      | true =>
        rw [tour_eq v]
        have := tour_nonneg v
        linarith
      | false =>
        have := TM.tour_le_twice v
        have e : circuit v false = v := by simp [circuit]
        rw [e]
        linarith
    · rw [tour_eq v]; exact hL

/-- **C128.** The result does not depend on the hull routine, except for the corner it starts with: for any two that keep the promise, the
results go through the same corners in the same cyclic order. -/
theorem C128_unique (env env' : HullEnv ℝ) (v : List (V3 ℝ)) (closed want want' : Bool) (na na' : NormalArg ℝ) (n : V3 ℝ) (c : ℝ)
    (hv : 2 ≤ v.length) (hn : UsesNormal env v na n) (hn' : UsesNormal env' v na' n) (hn0 : n ≠ zero3) (hpl : ∀ p ∈ v, inner3 n p = c)
    (idx idx' : List ℕ) (hh : env.hull (v.map (dropDim (argmax3 (n.map npAbs)))) = .ok idx)
    (hh' : env'.hull (v.map (dropDim (argmax3 (n.map npAbs)))) = .ok idx')
    (hs : HullSpec (v.map (dropDim (argmax3 (n.map npAbs)))) idx) (hs' : HullSpec (v.map (dropDim (argmax3 (n.map npAbs)))) idx') :
    ∃ qs qs' i i', convexify env (poly v closed) false want na = .ok (poly qs closed, i) ∧
      convexify env' (poly v closed) false want' na' = .ok (poly qs' closed, i') ∧ qs ~r qs' := by
  obtain ⟨qs, h1, hp, -⟩ := C57_planar env v closed want na n c hv hn hn0 hpl idx hh hs
  obtain ⟨qs', h1', hp', -⟩ := C57_planar env' v closed want' na' n c hv hn' hn0 hpl idx' hh' hs'
  refine ⟨qs, qs', _, _, h1, h1', ?_⟩
  have k := hs.isHull _ (picks_map _ hp)
  have k' := hs'.isHull _ (picks_map _ hp')
  have m := picks_mem (picks_map (dropDim (argmax3 (n.map npAbs))) hp)
  have m' := picks_mem (picks_map (dropDim (argmax3 (n.map npAbs))) hp')
  refine TM.rotated_of_map (f := dropDim (argmax3 (n.map npAbs))) ?_
    (TM.unique2 k k' m m' (fun q hq => k'.covers q (m q hq)) (fun q hq => k.covers q (m' q hq)))
  intro a ha b hb e
  exact TM.drop_inj (argmax3_nonzero hn0) (hpl a (picks_mem hp a ha)) (hpl b (picks_mem hp' b hb)) e

/-- **C128.** Convexifying again changes nothing but the corner the polyline starts with, and keeps the length of a closed one. -/
theorem C128_again (env : HullEnv ℝ) (hhull : ∀ ps idx, env.hull ps = .ok idx → HullSpec ps idx) (v : List (V3 ℝ))
    (closed want want' : Bool) (n : V3 ℝ) (c : ℝ) (hn0 : n ≠ zero3) (hpl : ∀ p ∈ v, inner3 n p = c) (hv : 2 ≤ v.length)
    (p p' : Polyline ℝ) (i i' : Option (List ℕ))
    (h : convexify env (poly v closed) false want (.seq n) = .ok (p, i))
    (h' : convexify env p false want' (.seq n) = .ok (p', i')) :
    ∃ qs qs', p = poly qs closed ∧ p' = poly qs' closed ∧ qs ~r qs' ∧ (closed = true → p'.totalLength = p.totalLength) := by
  obtain ⟨d, hd⟩ : ∃ d, d = argmax3 (n.map npAbs) := ⟨_, rfl⟩
  have fails : ∀ (w : List (V3 ℝ)) e, 2 ≤ w.length → env.hull (w.map (dropDim d)) = .error e → ∀ want,
      ∃ e', convexify env (poly w closed) false want (.seq n) = .error e' := by
    intro w e hw he want
    unfold convexify
    rw [if_neg (by simp)]
    have hva : (poly w closed).vArr = .ok w := rfl
    simp only [hva, ok_bind]
    rw [if_neg (by omega), usesNormal_eq (.inl rfl)]
    simp only [ok_bind, ← hd, he]
    exact ⟨_, rfl⟩
  cases hi : env.hull (v.map (dropDim d)) with
  | error e =>
    obtain ⟨e', he'⟩ := fails v e hv hi want
    rw [he'] at h; cases h
  | ok idx =>
    have hs := hhull _ _ hi
    obtain ⟨qs, h1, hp, -⟩ := C57_planar env v closed want (.seq n) n c hv (.inl rfl) hn0 hpl idx (hd ▸ hi) (hd ▸ hs)
    rw [h1] at h
    cases h
    by_cases hq : qs.length ≤ 1
    · have := (C57_small env (poly qs closed) false want' (.seq n)).1 qs rfl hq
      rw [this] at h'
      cases h'
      exact ⟨qs, qs, rfl, rfl, List.IsRotated.refl _, fun _ => rfl⟩
    · have hq2 : 2 ≤ qs.length := by omega
      have hplq : ∀ p ∈ qs, inner3 n p = c := fun q hq => hpl q (picks_mem hp q hq)
      cases hj : env.hull (qs.map (dropDim d)) with
      | error e =>
        obtain ⟨e', he'⟩ := fails qs e hq2 hj want'
        rw [he'] at h'; cases h'
      | ok jdx =>
        have hs' := hhull _ _ hj
        obtain ⟨qs', h2, hp', -⟩ := C57_planar env qs closed want' (.seq n) n c hq2 (.inl rfl) hn0 hplq jdx (hd ▸ hj) (hd ▸ hs')
        rw [h2] at h'
        cases h'
        have k := hs.isHull _ (picks_map _ hp)
        have k' := hs'.isHull _ (picks_map _ hp')
        have m := picks_mem (picks_map (dropDim d) hp)
        have m' := picks_mem (picks_map (dropDim d) hp')
        have hrot : qs ~r qs' := by
          refine TM.rotated_of_map (f := dropDim d) ?_
            (TM.unique2 k k' m m' (fun q hq => k'.covers q hq) (fun q hq => k.covers q (m q (m' q hq))))
          intro a ha b hb e
          exact TM.drop_inj (hd ▸ argmax3_nonzero hn0) (hplq a ha) (hplq b (picks_mem hp' b hb)) e
        refine ⟨qs, qs', rfl, rfl, hrot, ?_⟩
        rintro rfl
        rw [(C35_lengths qs' true).2, (C35_lengths qs true).2, tour_eq, tour_eq, tour_rotated hrot]

/-! ### The hypotheses are met -/

/-- the triangle with a point inside, of `C57_planar`: the closed curve through the four points is longer than the triangle -/
example (env : HullEnv ℝ) (hh : env.hull tri2 = .ok [0, 1, 3]) :
    ∃ p i L L', convexify env (poly [⟨0, 0, 2⟩, ⟨1, 0, 3 / 2⟩, ⟨1 / 4, 1 / 4, 7 / 4⟩, ⟨0, 1, 3 / 2⟩] true) false true (.seq ⟨1, 1, 2⟩) = .ok (p, i) ∧
      p.totalLength = .ok L ∧ (poly [⟨0, 0, 2⟩, ⟨1, 0, 3 / 2⟩, ⟨1 / 4, 1 / 4, 7 / 4⟩, ⟨0, 1, 3 / 2⟩] true).totalLength = .ok L' ∧ L ≤ L' := by
  have ha : argmax3 ((⟨1, 1, 2⟩ : V3 ℝ).map npAbs) = 2 := by
    simp [argmax3, V3.map, npAbs_real']
  have hd : ([⟨0, 0, 2⟩, ⟨1, 0, 3 / 2⟩, ⟨1 / 4, 1 / 4, 7 / 4⟩, ⟨0, 1, 3 / 2⟩] : List (V3 ℝ)).map (dropDim 2) = tri2 := by
    simp [dropDim, tri2]
  obtain ⟨p, i, L, L', h1, h2, h3, h4, -⟩ := C128_convexify env [⟨0, 0, 2⟩, ⟨1, 0, 3 / 2⟩, ⟨1 / 4, 1 / 4, 7 / 4⟩, ⟨0, 1, 3 / 2⟩] true true
    (.seq ⟨1, 1, 2⟩) ⟨1, 1, 2⟩ 4 (by simp) (.inl rfl) (by simp [zero3]) (by
      intro p hp
      simp only [List.mem_cons, List.not_mem_nil, or_false] at hp
      rcases hp with rfl | rfl | rfl | rfl <;> norm_num [inner3]) [0, 1, 3] (by rw [ha, hd]; exact hh) (by rw [ha, hd]; exact tri2_hull)
  exact ⟨p, i, L, L', h1, h2, h3, h4 rfl⟩

/-- the corners of a hull are the corners of their own hull -/
theorem TM.hullSpec_self {ps qs : List (ℝ × ℝ)} (h : IsHull2 ps qs) (hs : ∀ q ∈ qs, q ∈ ps) (hne : qs ≠ []) :
    HullSpec qs (List.range qs.length) := by
  refine ⟨by simpa using hne, by simp, ?_⟩
  intro rs hr
  have e : rs = qs := by
    refine List.map_injective_iff.mpr (Option.some_injective _) (hr.trans ?_)
    refine List.ext_getElem (by simp) ?_
    intro i h1 h2
    simp only [List.length_map, List.length_range] at h1
    simp [h1]
  subst e
  refine ⟨?_, h.minimal, fun e he p hp => h.leftTurns e he p (hs p hp)⟩
  intro p hp
  rw [TM.inHull_emb]
  exact inHull_self (List.mem_map_of_mem hp)

/-- the hypotheses of `C128_again` are met: a hull routine, and a closed polyline that can be convexified twice -/
example : ∃ (env : HullEnv ℝ) (p p' : Polyline ℝ) (i i' : Option (List ℕ)), (∀ ps idx, env.hull ps = .ok idx → HullSpec ps idx) ∧
    convexify env (poly [⟨0, 0, 2⟩, ⟨1, 0, 3 / 2⟩, ⟨1 / 4, 1 / 4, 7 / 4⟩, ⟨0, 1, 3 / 2⟩] true) false true (.seq ⟨1, 1, 2⟩) = .ok (p, i) ∧
    convexify env p false true (.seq ⟨1, 1, 2⟩) = .ok (p', i') := by
  classical
  obtain ⟨env, henv⟩ : ∃ env : HullEnv ℝ, env.hull = fun ps => if h : ∃ idx, HullSpec ps idx then .ok h.choose else .error .ValueError :=
    ⟨⟨_, fun _ => .error .ValueError, fun _ => .error .ValueError, fun _ => 1⟩, rfl⟩
  have hspec : ∀ ps idx, env.hull ps = .ok idx → HullSpec ps idx := by
    intro ps idx h
    rw [henv] at h
    simp only at h
    split at h
    · rename_i hx; cases h; exact hx.choose_spec
    · cases h
  have hsome : ∀ ps, (∃ idx, HullSpec ps idx) → ∃ idx, env.hull ps = .ok idx := by
    intro ps h; exact ⟨h.choose, by rw [henv]; simp [h]⟩
  have ha : argmax3 ((⟨1, 1, 2⟩ : V3 ℝ).map npAbs) = 2 := by
    simp [argmax3, V3.map, npAbs_real']
  have hd : ([⟨0, 0, 2⟩, ⟨1, 0, 3 / 2⟩, ⟨1 / 4, 1 / 4, 7 / 4⟩, ⟨0, 1, 3 / 2⟩] : List (V3 ℝ)).map (dropDim 2) = tri2 := by
    simp [dropDim, tri2]
  have hpl : ∀ p ∈ ([⟨0, 0, 2⟩, ⟨1, 0, 3 / 2⟩, ⟨1 / 4, 1 / 4, 7 / 4⟩, ⟨0, 1, 3 / 2⟩] : List (V3 ℝ)), inner3 ⟨1, 1, 2⟩ p = 4 := by
    intro p hp
    simp only [List.mem_cons, List.not_mem_nil, or_false] at hp
    rcases hp with rfl | rfl | rfl | rfl <;> norm_num [inner3]
  obtain ⟨idx, hidx⟩ := hsome tri2 ⟨_, tri2_hull⟩
  have hs := hspec _ _ hidx
  obtain ⟨qs, h1, hp, -⟩ := C57_planar env [⟨0, 0, 2⟩, ⟨1, 0, 3 / 2⟩, ⟨1 / 4, 1 / 4, 7 / 4⟩, ⟨0, 1, 3 / 2⟩] true true (.seq ⟨1, 1, 2⟩) ⟨1, 1, 2⟩ 4
    (by simp) (.inl rfl) (by simp [zero3]) hpl idx (by rw [ha, hd]; exact hidx) (by rw [ha, hd]; exact hs)
  have hp2 : Picks tri2 idx (qs.map (dropDim 2)) := hd ▸ picks_map (dropDim 2) hp
  have hq := TM.hullSpec_self (hs.isHull _ hp2) (picks_mem hp2) (by
    have := picks_ne_nil hp hs.nonempty
    simpa using this)
  by_cases hl : qs.length ≤ 1
  · exact ⟨env, _, _, _, _, hspec, h1, (C57_small env (poly qs true) false true (.seq ⟨1, 1, 2⟩)).1 qs rfl hl⟩
  · obtain ⟨jdx, hj⟩ := hsome _ ⟨_, hq⟩
    obtain ⟨qs', h2, -⟩ := C57_planar env qs true true (.seq ⟨1, 1, 2⟩) ⟨1, 1, 2⟩ 4 (by omega) (.inl rfl) (by simp [zero3])
      (fun p h => hpl p (picks_mem hp p h)) jdx (by rw [ha]; exact hj) (by rw [ha]; exact hspec _ _ hj)
    exact ⟨env, _, _, _, _, hspec, h1, h2⟩

/-- An open polyline can become longer: a path along two sides of the triangle (0, 0), (4, 0), (0, 1), the shortest side first, and the
same corners starting with the longest side. -/
theorem C128_open_longer : ∃ (v qs : List (V3 ℝ)) (L L' : ℝ), qs ~r v ∧ (∃ n, IsHull3 n v qs) ∧ (poly v false).totalLength = .ok L ∧
    (poly qs false).totalLength = .ok L' ∧ L < L' := by
  refine ⟨[⟨0, 1, 0⟩, ⟨0, 0, 0⟩, ⟨4, 0, 0⟩], [⟨0, 0, 0⟩, ⟨4, 0, 0⟩, ⟨0, 1, 0⟩], _, _, ⟨2, rfl⟩, ⟨⟨0, 0, 1⟩, ?_, ?_, ?_⟩, (C35_lengths _ false).2,
    (C35_lengths _ false).2, ?_⟩
  · intro p hp
    exact inHull_self (by simp only [List.mem_cons, List.not_mem_nil, or_false] at hp ⊢; tauto)
  · rintro k q hk ⟨ws, ⟨hl, hw, hs⟩, h1, h2, h3⟩
    have hk3 : k < 3 := by
      by_contra hc
      rw [List.getElem?_eq_none (by simpa using hc)] at hk; cases hk
    have hl2 : ws.length = 2 := by
      rw [hl, List.length_eraseIdx_of_lt (by simpa using hk3)]; rfl
    obtain ⟨a, b, rfl⟩ := List.length_eq_two.mp hl2
    have h0 : k = 0 ∨ k = 1 ∨ k = 2 := by omega
    rcases h0 with rfl | rfl | rfl <;> simp at hk <;> subst hk <;> simp [rdot] at h1 h2 hs <;> linarith
  · left
    intro e he p hp
    simp [cyclicPairs] at he
    simp only [List.mem_cons, List.not_mem_nil, or_false] at hp
    rcases he with rfl | rfl | rfl <;> rcases hp with rfl | rfl | rfl <;> norm_num [det3, vec3, inner3, cross3]
  · have a1 : dist3 (⟨0, 1, 0⟩ : V3 ℝ) ⟨0, 0, 0⟩ = 1 := by simp [dist3, len3, vec3]
    have a2 : dist3 (⟨0, 0, 0⟩ : V3 ℝ) ⟨4, 0, 0⟩ = 4 := by
      simp [dist3, len3, vec3]
    have a3 : 1 < dist3 (⟨4, 0, 0⟩ : V3 ℝ) ⟨0, 1, 0⟩ := by
      simp only [dist3, len3, vec3]
      rw [Real.lt_sqrt (by norm_num)]; norm_num
    simp only [circuit, pathLength, pairs, Bool.false_eq_true, if_false, List.append_nil, List.map_cons, List.map_nil, List.sum_cons,
      List.sum_nil, a1, a2]
    linarith

end Blmath.Props
