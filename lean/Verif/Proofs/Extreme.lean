import Verif.Proofs.Tape
import Mathlib.Analysis.Convex.Extreme
import Mathlib.Analysis.Convex.Join
import Mathlib.Data.Real.Basic

/-!
Facts for property C128: convex combinations of the points of a list, and the corners of a hull.
-/

namespace Blmath.TM
open Blmath.Spec Blmath.Proofs

/-- the point as an element of a vector space -/
def co (p : V3 ℝ) : ℝ × ℝ × ℝ := (p.x, p.y, p.z)

theorem co_inj {p q : V3 ℝ} (h : co p = co q) : p = q := by
  simp only [co, Prod.mk.injEq] at h
  ext
  · exact h.1
  · exact h.2.1
  · exact h.2.2

/-- the points of a list -/
def pts (l : List (V3 ℝ)) : Set (ℝ × ℝ × ℝ) := {c | ∃ p ∈ l, co p = c}

theorem rdot_cons (w : ℝ) (ws : List ℝ) (x : ℝ) (xs : List ℝ) : rdot (w :: ws) (x :: xs) = w * x + rdot ws xs := by
  simp [rdot]

theorem rdot_zeros (xs : List ℝ) (k : ℕ) : rdot (List.replicate k 0) xs = 0 := by
  induction k generalizing xs with
  | zero => simp [rdot]
  | succ k ih =>
    cases xs with
    | nil => simp [rdot]
    | cons x xs => rw [List.replicate_succ, rdot_cons, ih]; ring

theorem inHull_self {l : List (V3 ℝ)} {p : V3 ℝ} (h : p ∈ l) : InHull3 l p := by
  induction l with
  | nil => simp at h
  | cons q l ih =>
    rcases List.mem_cons.mp h with rfl | h
    · refine ⟨1 :: List.replicate l.length 0, ⟨by simp, ?_, by simp⟩, ?_, ?_, ?_⟩
      · intro w hw
        rcases List.mem_cons.mp hw with rfl | hw
        · exact zero_le_one
        · rw [(List.mem_replicate.mp hw).2]
      all_goals rw [List.map_cons, rdot_cons, rdot_zeros]; ring
    · obtain ⟨ws, ⟨h1, h2, h3⟩, hx, hy, hz⟩ := ih h
      refine ⟨0 :: ws, ⟨by simp [h1], ?_, by simp [h3]⟩, ?_, ?_, ?_⟩
      · intro w hw
        rcases List.mem_cons.mp hw with rfl | hw
        · exact le_rfl
        · exact h2 w hw
      · rw [List.map_cons, rdot_cons, hx]; ring
      · rw [List.map_cons, rdot_cons, hy]; ring
      · rw [List.map_cons, rdot_cons, hz]; ring

theorem mix (a b : ℝ) : ∀ (ws ws' xs : List ℝ), ws.length = xs.length → ws'.length = xs.length →
    rdot (List.zipWith (fun w w' => a * w + b * w') ws ws') xs = a * rdot ws xs + b * rdot ws' xs
  | [], [], [], _, _ => by simp [rdot]
  | w :: ws, w' :: ws', x :: xs, h, h' => by
    simp only [List.zipWith_cons_cons, rdot_cons]
    rw [mix a b ws ws' xs (by simpa using h) (by simpa using h')]; ring
  | [], _ :: _, [], _, h' => by simp at h'
  | _ :: _, _, [], h, _ => by simp at h
  | [], _, _ :: _, h, _ => by simp at h
  | _ :: _, [], _ :: _, _, h' => by simp at h'

theorem mix_sum (a b : ℝ) : ∀ (ws ws' : List ℝ), ws.length = ws'.length →
    (List.zipWith (fun w w' => a * w + b * w') ws ws').sum = a * ws.sum + b * ws'.sum
  | [], [], _ => by simp
  | w :: ws, w' :: ws', h => by
    simp only [List.zipWith_cons_cons, List.sum_cons]
    rw [mix_sum a b ws ws' (by simpa using h)]; ring
  | [], _ :: _, h => by simp at h
  | _ :: _, [], h => by simp at h

/-- convex combinations of convex combinations -/
theorem inHull_mix {l : List (V3 ℝ)} {p q r : V3 ℝ} {a b : ℝ} (hp : InHull3 l p) (hq : InHull3 l q) (ha : 0 ≤ a) (hb : 0 ≤ b)
    (hab : a + b = 1) (hx : r.x = a * p.x + b * q.x) (hy : r.y = a * p.y + b * q.y) (hz : r.z = a * p.z + b * q.z) : InHull3 l r := by
  obtain ⟨ws, ⟨h1, h2, h3⟩, px, py, pz⟩ := hp
  obtain ⟨ws', ⟨h1', h2', h3'⟩, qx, qy, qz⟩ := hq
  refine ⟨List.zipWith (fun w w' => a * w + b * w') ws ws', ⟨by simp [h1, h1'], ?_, ?_⟩, ?_, ?_, ?_⟩
  · intro w hw
    obtain ⟨i, hi, rfl⟩ := List.mem_iff_getElem.mp hw
    rw [List.getElem_zipWith]
    exact add_nonneg (mul_nonneg ha (h2 _ (List.getElem_mem _))) (mul_nonneg hb (h2' _ (List.getElem_mem _)))
  · rw [mix_sum _ _ _ _ (h1.trans h1'.symm), h3, h3']; linarith
  · rw [mix _ _ _ _ _ (by simp [h1]) (by simp [h1']), px, qx, hx]
  · rw [mix _ _ _ _ _ (by simp [h1]) (by simp [h1']), py, qy, hy]
  · rw [mix _ _ _ _ _ (by simp [h1]) (by simp [h1']), pz, qz, hz]

/-- the sum of weighted points of a convex set -/
theorem weighted {K : Set (ℝ × ℝ × ℝ)} (hK : Convex ℝ K) : ∀ (ws : List ℝ) (l : List (V3 ℝ)), ws.length = l.length → (∀ w ∈ ws, 0 ≤ w) →
    (∀ p ∈ l, co p ∈ K) → 0 < ws.sum →
    ∃ c ∈ K, rdot ws (l.map V3.x) = ws.sum * c.1 ∧ rdot ws (l.map V3.y) = ws.sum * c.2.1 ∧ rdot ws (l.map V3.z) = ws.sum * c.2.2
  | [], _, _, _, _, h => by simp at h
  | _ :: _, [], h, _, _, _ => by simp at h
  | w :: ws, p :: l, h, hw, hp, hs => by
    have hw0 : 0 ≤ w := hw w (by simp)
    have hws : ∀ x ∈ ws, 0 ≤ x := fun x hx => hw x (by simp [hx])
    have hsum : 0 ≤ ws.sum := List.sum_nonneg hws
    have hlen : ws.length = l.length := by simpa using h
    simp only [List.map_cons, rdot_cons, List.sum_cons] at hs ⊢
    rcases hsum.eq_or_lt with h0 | hpos
    · have hz : ∀ x ∈ ws, x = 0 := by
        intro x hx
        exact le_antisymm (h0 ▸ List.single_le_sum hws x hx) (hws x hx)
      have hr : ws = List.replicate ws.length 0 := List.eq_replicate_of_mem hz
      refine ⟨co p, hp p (by simp), ?_⟩
      rw [hr, rdot_zeros, rdot_zeros, rdot_zeros]
      simp [co]
    · obtain ⟨c, hc, cx, cy, cz⟩ := weighted hK ws l hlen hws (fun q hq => hp q (by simp [hq])) hpos
      refine ⟨(w / (w + ws.sum)) • co p + (ws.sum / (w + ws.sum)) • c,
        hK (hp p (by simp)) hc (by positivity) (by positivity) (by field_simp), ?_⟩
      rw [cx, cy, cz]
      simp only [co, Prod.fst_add, Prod.snd_add, Prod.smul_fst, Prod.smul_snd, smul_eq_mul]
      refine ⟨?_, ?_, ?_⟩ <;> field_simp

theorem inHull_iff (l : List (V3 ℝ)) (p : V3 ℝ) : InHull3 l p ↔ co p ∈ convexHull ℝ (pts l) := by
  constructor
  · rintro ⟨ws, ⟨h1, h2, h3⟩, hx, hy, hz⟩
    obtain ⟨c, hc, cx, cy, cz⟩ := weighted (convex_convexHull ℝ (pts l)) ws l h1 h2
      (fun q hq => subset_convexHull ℝ _ ⟨q, hq, rfl⟩) (by rw [h3]; exact one_pos)
    rw [h3, one_mul] at cx cy cz
    have : co p = c := by
      simp only [co, ← hx, ← hy, ← hz, cx, cy, cz]
    rwa [this]
  · intro h
    have hsub : convexHull ℝ (pts l) ⊆ {c | InHull3 l ⟨c.1, c.2.1, c.2.2⟩} := by
      refine convexHull_min ?_ ?_
      · rintro _ ⟨q, hq, rfl⟩
        exact inHull_self hq
      · intro c hc d hd a b ha hb hab
        exact inHull_mix hc hd ha hb hab rfl rfl rfl
    exact hsub h

/-- none of the points is a convex combination of the others -/
def Corners (Q : List (V3 ℝ)) : Prop := ∀ k q, Q[k]? = some q → ¬ InHull3 (Q.eraseIdx k) q

theorem mem_erase {Q : List (V3 ℝ)} {k : ℕ} {q p : V3 ℝ} (hk : Q[k]? = some q) (hp : p ∈ Q) (hne : p ≠ q) : p ∈ Q.eraseIdx k := by
  obtain ⟨i, hi, rfl⟩ := List.mem_iff_getElem.mp hp
  obtain ⟨hk1, hk2⟩ := List.getElem?_eq_some_iff.mp hk
  rw [List.mem_eraseIdx_iff_getElem]
  refine ⟨i, hi, ?_, rfl⟩
  rintro rfl
  exact hne hk2

theorem Corners.nodup {Q : List (V3 ℝ)} (h : Corners Q) : Q.Nodup := by
  rw [List.nodup_iff_injective_get]
  intro i j hij
  by_contra hne
  refine h i (Q.get i) (by simp) (inHull_self ?_)
  rw [List.mem_eraseIdx_iff_getElem]
  exact ⟨j, j.2, fun e => hne (Fin.ext e.symm), by simpa using hij.symm⟩

/-- no corner is between two others -/
theorem Corners.not_between {Q : List (V3 ℝ)} (h : Corners Q) {a b c : V3 ℝ} (ha : a ∈ Q) (hb : b ∈ Q) (hc : c ∈ Q) (hab : b ≠ a)
    (hac : c ≠ a) {t : ℝ} (ht : 0 ≤ t ∧ t ≤ 1) : a ≠ at' b c t := by
  intro e
  obtain ⟨k, hk⟩ := List.getElem?_of_mem ha
  refine h k a hk (inHull_mix (inHull_self (mem_erase hk hb hab)) (inHull_self (mem_erase hk hc hac)) (a := 1 - t) (b := t)
    (by linarith [ht.2]) ht.1 (by ring) ?_ ?_ ?_)
  · rw [e]; simp only [at']; ring
  · rw [e]; simp only [at']; ring
  · rw [e]; simp only [at']; ring

theorem collinear {n a b c : V3 ℝ} {k : ℝ} (hn : n ≠ zero3) (ha : inner3 n a = k) (hb : inner3 n b = k) (hc : inner3 n c = k)
    (h : turn n a b c = 0) (hab : a ≠ b) : ∃ s, c = at' a b s := by
  have hnn : inner3 n n ≠ 0 := by rw [← len3_mul_self]; exact (mul_pos (len3_pos hn) (len3_pos hn)).ne'
  have e1 : n.x * (b.x - a.x) + n.y * (b.y - a.y) + n.z * (b.z - a.z) = 0 := by simp only [inner3] at ha hb; linarith
  have e2 : n.x * (c.x - a.x) + n.y * (c.y - a.y) + n.z * (c.z - a.z) = 0 := by simp only [inner3] at ha hc; linarith
  simp only [turn, det3, inner3, cross3, vec3] at h
  have cx : (b.y - a.y) * (c.z - a.z) - (b.z - a.z) * (c.y - a.y) = 0 := by
    refine (mul_eq_zero.mp ?_).resolve_left hnn
    simp only [inner3]
    linear_combination n.x * h - n.y * ((b.z - a.z) * e2 - (c.z - a.z) * e1) + n.z * ((b.y - a.y) * e2 - (c.y - a.y) * e1)
  have cy : (b.z - a.z) * (c.x - a.x) - (b.x - a.x) * (c.z - a.z) = 0 := by
    refine (mul_eq_zero.mp ?_).resolve_left hnn
    simp only [inner3]
    linear_combination n.y * h - n.z * ((b.x - a.x) * e2 - (c.x - a.x) * e1) + n.x * ((b.z - a.z) * e2 - (c.z - a.z) * e1)
  have cz : (b.x - a.x) * (c.y - a.y) - (b.y - a.y) * (c.x - a.x) = 0 := by
    refine (mul_eq_zero.mp ?_).resolve_left hnn
    simp only [inner3]
    linear_combination n.z * h - n.x * ((b.y - a.y) * e2 - (c.y - a.y) * e1) + n.y * ((b.x - a.x) * e2 - (c.x - a.x) * e1)
  have : b.x - a.x ≠ 0 ∨ b.y - a.y ≠ 0 ∨ b.z - a.z ≠ 0 := by
    by_contra hh
    push Not at hh
    apply hab
    ext <;> linarith [hh.1, hh.2.1, hh.2.2]
  rcases this with h' | h' | h'
  · refine ⟨(c.x - a.x) / (b.x - a.x), ?_⟩
    ext <;> simp only [at'] <;> field_simp <;> linarith
  · refine ⟨(c.y - a.y) / (b.y - a.y), ?_⟩
    ext <;> simp only [at'] <;> field_simp <;> linarith
  · refine ⟨(c.z - a.z) / (b.z - a.z), ?_⟩
    ext <;> simp only [at'] <;> field_simp <;> linarith

/-- no three corners are in line -/
theorem Corners.proper {Q : List (V3 ℝ)} (h : Corners Q) {n : V3 ℝ} {k : ℝ} (hn : n ≠ zero3) (hpl : ∀ q ∈ Q, inner3 n q = k) :
    ∀ a ∈ Q, ∀ b ∈ Q, ∀ c ∈ Q, a ≠ b → b ≠ c → a ≠ c → turn n a b c ≠ 0 := by
  intro a ha b hb c hc hab hbc hac h0
  obtain ⟨s, hs⟩ := collinear hn (hpl a ha) (hpl b hb) (hpl c hc) h0 hab
  by_cases h1 : s < 0
  · have h2 : 0 < 1 - s := by linarith
    refine h.not_between ha hb hc hab.symm hac.symm (t := 1 / (1 - s))
      ⟨by positivity, by rw [div_le_one h2]; linarith⟩ ?_
    rw [hs]
    ext <;> simp only [at'] <;> field_simp <;> ring
  · by_cases h2 : s ≤ 1
    · exact h.not_between hc ha hb hac hbc ⟨by linarith, h2⟩ hs
    · have h3 : 0 < s := by linarith
      refine h.not_between hb ha hc hab hbc.symm (t := 1 / s) ⟨by positivity, by rw [div_le_one h3]; linarith⟩ ?_
      rw [hs]
      ext <;> simp only [at'] <;> field_simp <;> ring

theorem absorb {K : Set (ℝ × ℝ × ℝ)} {q y y' : ℝ × ℝ × ℝ} {α β γ : ℝ} (h1 : α + β + γ = 1) (hβ : 0 ≤ β) (hγ : 0 ≤ γ) (h0 : 0 < β + γ)
    (hy : y ∈ convexHull ℝ K) (hy' : y' ∈ convexHull ℝ K) (e : q = α • q + β • y + γ • y') : q ∈ convexHull ℝ K := by
  have : q = (β / (β + γ)) • y + (γ / (β + γ)) • y' := by
    have e2 : (β + γ) • q = β • y + γ • y' := by
      have h2 : α = 1 - (β + γ) := by linarith
      rw [h2] at e
      have h3 : (β + γ) • q = q - (1 - (β + γ)) • q := by module
      rw [h3, sub_eq_iff_eq_add]
      conv_lhs => rw [e]
      module
    have h4 : q = (β + γ)⁻¹ • ((β + γ) • q) := by rw [smul_smul, inv_mul_cancel₀ h0.ne', one_smul]
    rw [h4, e2, smul_add, smul_smul, smul_smul, div_eq_inv_mul, div_eq_inv_mul]
  rw [this]
  exact convex_convexHull ℝ K hy hy' (by positivity) (by positivity) (by field_simp)

/-- a corner is an extreme point -/
theorem Corners.extreme {Q : List (V3 ℝ)} (h : Corners Q) {q : V3 ℝ} (hq : q ∈ Q) :
    co q ∈ (convexHull ℝ (pts Q)).extremePoints ℝ := by
  obtain ⟨k, hk⟩ := List.getElem?_of_mem hq
  have hno := h k q hk
  rw [inHull_iff] at hno
  obtain ⟨E, hE⟩ : ∃ E, E = pts (Q.eraseIdx k) := ⟨_, rfl⟩
  rw [← hE] at hno
  have hins : pts Q ⊆ insert (co q) E := by
    rintro _ ⟨p, hp, rfl⟩
    by_cases e : p = q
    · exact .inl (by rw [e])
    · exact .inr (hE ▸ ⟨p, mem_erase hk hp e, rfl⟩)
  have hpt : ∀ c ∈ convexHull ℝ (pts Q), c = co q ∨ ∃ a b : ℝ, ∃ y ∈ convexHull ℝ E, 0 ≤ a ∧ 0 < b ∧ a + b = 1 ∧ c = a • co q + b • y := by
    intro c hc
    have hc := convexHull_mono hins hc
    rcases E.eq_empty_or_nonempty with h0 | h0
    · rw [h0] at hc
      simp at hc
      exact .inl hc
    · rw [convexHull_insert h0] at hc
      obtain ⟨x, hx, y, hy, a, b, ha, hb, hab, rfl⟩ := mem_convexJoin.mp hc
      rw [Set.mem_singleton_iff] at hx
      subst hx
      rcases hb.eq_or_lt with h1 | h1
      · left; simp [← h1, show a = 1 by linarith]
      · right
        exact ⟨a, b, y, hy, ha, h1, hab, rfl⟩
  rw [mem_extremePoints]
  refine ⟨subset_convexHull ℝ _ ⟨q, hq, rfl⟩, ?_⟩
  rintro c hc d hd ⟨s, t, hs, ht, hst, e⟩
  rcases hpt c hc with rfl | ⟨a, b, y, hy, ha, hb, hab, rfl⟩ <;> rcases hpt d hd with rfl | ⟨a', b', y', hy', ha', hb', hab', rfl⟩
  · exact ⟨rfl, rfl⟩
  · exact (hno (absorb (α := s + t * a') (β := t * b') (γ := 0) (by rw [show s + t * a' + t * b' + 0 = s + t * (a' + b') by ring, hab']; linarith)
      (mul_nonneg ht.le hb'.le) le_rfl (by have := mul_pos ht hb'; linarith) hy' hy' (e.symm.trans (by module)))).elim
  · exact (hno (absorb (α := s * a + t) (β := s * b) (γ := 0) (by rw [show s * a + t + s * b + 0 = s * (a + b) + t by ring, hab]; linarith)
      (mul_nonneg hs.le hb.le) le_rfl (by have := mul_pos hs hb; linarith) hy hy (e.symm.trans (by module)))).elim
  · exact (hno (absorb (α := s * a + t * a') (β := s * b) (γ := t * b')
      (by rw [show s * a + t * a' + s * b + t * b' = s * (a + b) + t * (a' + b') by ring, hab, hab']; linarith)
      (mul_nonneg hs.le hb.le) (mul_nonneg ht.le hb'.le) (by have := mul_pos hs hb; have := mul_pos ht hb'; linarith) hy hy'
      (e.symm.trans (by module)))).elim

/-- two lists of corners with each within the hull of the other are the same corners -/
theorem corners_unique {Q Q' : List (V3 ℝ)} (h : Corners Q) (h1 : ∀ q ∈ Q, InHull3 Q' q) (h2 : ∀ q ∈ Q', InHull3 Q q) :
    ∀ q ∈ Q, q ∈ Q' := by
  intro q hq
  have sub : ∀ {A B : List (V3 ℝ)}, (∀ q ∈ A, InHull3 B q) → convexHull ℝ (pts A) ⊆ convexHull ℝ (pts B) := by
    intro A B hAB
    refine convexHull_min ?_ (convex_convexHull ℝ _)
    rintro _ ⟨p, hp, rfl⟩
    exact (inHull_iff B p).mp (hAB p hp)
  have he := h.extreme hq
  rw [show convexHull ℝ (pts Q) = convexHull ℝ (pts Q') from (sub h1).antisymm (sub h2)] at he
  obtain ⟨p, hp, e⟩ := extremePoints_convexHull_subset he
  exact co_inj e ▸ hp

theorem Corners.round {Q : List (V3 ℝ)} (h : Corners Q) {n : V3 ℝ} {k : ℝ} (hn : n ≠ zero3) (hpl : ∀ q ∈ Q, inner3 n q = k)
    (hl : ∀ e ∈ cyclicPairs Q, ∀ p ∈ Q, 0 ≤ turn n e.1 e.2 p) : Round (turn n) Q :=
  ⟨h.nodup, hl, h.proper hn hpl⟩

end Blmath.TM
