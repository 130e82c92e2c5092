import Verif.Props.Tape
import Verif.Props.Lapack
import Mathlib.Analysis.Convex.Combination
import Mathlib.Data.Prod.Lex

/-!
Property C154: every finite set of points of the plane has a convex hull in the sense of `HullSpec`, and what follows for `convexify_planar_curve`.
-/

namespace Blmath.Props
open Blmath.Geometry Blmath.Linalg Blmath.Spec Blmath.Proofs Blmath.TM

namespace HE

abbrev P2 := ℝ × ℝ

theorem mem_iff (qs : List P2) (p : P2) : InHull2 qs p ↔ p ∈ convexHull ℝ {q | q ∈ qs} := by
  rw [TM.inHull_emb, inHull_iff]
  let L : P2 →ₗ[ℝ] ℝ × ℝ × ℝ := (LinearMap.fst ℝ ℝ ℝ).prod ((LinearMap.snd ℝ ℝ ℝ).prod 0)
  have hL : Function.Injective L := by
    rintro ⟨a, b⟩ ⟨c, d⟩ h
    simp [L] at h
    simp [h.1, h.2]
  have e1 : Blmath.TM.pts (qs.map TM.emb) = L '' {q | q ∈ qs} := by
    ext c
    simp only [Blmath.TM.pts, Set.mem_image, Set.mem_setOf_eq, List.mem_map]
    constructor
    · rintro ⟨_, ⟨q, hq, rfl⟩, rfl⟩; exact ⟨q, hq, rfl⟩
    · rintro ⟨q, hq, rfl⟩; exact ⟨_, ⟨q, hq, rfl⟩, rfl⟩
  have e2 : co (TM.emb p) = L p := rfl
  rw [e1, e2, ← L.image_convexHull, hL.mem_set_image]

/-- lexicographically greater -/
def Right (v a : P2) : Prop := v.1 < a.1 ∨ v.1 = a.1 ∧ v.2 < a.2

/-- the slope of the ray from `v` to `a` -/
noncomputable def key (v a : P2) : WithTop ℝ := if a.1 = v.1 then ⊤ else (((a.2 - v.2) / (a.1 - v.1) : ℝ) : WithTop ℝ)

theorem area_pos_iff {v a b : P2} (ha : Right v a) (hb : Right v b) : 0 < area2 v a b ↔ key v a < key v b := by
  unfold key area2
  rcases ha with ha | ⟨ha, ha'⟩ <;> rcases hb with hb | ⟨hb, hb'⟩
  · rw [if_neg ha.ne', if_neg hb.ne', WithTop.coe_lt_coe, div_lt_div_iff₀ (by linarith) (by linarith)]
    constructor <;> intro h <;> nlinarith
  · rw [if_neg ha.ne', if_pos hb.symm]
    refine ⟨fun _ => WithTop.coe_lt_top _, fun _ => ?_⟩
    rw [← hb]; nlinarith
  · rw [if_pos ha.symm]
    refine ⟨fun h => ?_, fun h => absurd h not_top_lt⟩
    rw [← ha] at h; nlinarith
  · rw [if_pos ha.symm, if_pos hb.symm, ← ha, ← hb]
    simp

theorem area_swap (a b c : P2) : area2 a c b = -area2 a b c := by unfold area2; ring
theorem area_cycle (a b c : P2) : area2 b c a = area2 a b c := by unfold area2; ring

theorem key_ne {v a b : P2} (ha : Right v a) (hb : Right v b) (h : area2 v a b ≠ 0) : key v a ≠ key v b := by
  rcases lt_or_gt_of_ne h with h | h
  · have : 0 < area2 v b a := by rw [area_swap]; linarith
    exact ((area_pos_iff hb ha).1 this).ne'
  · exact ((area_pos_iff ha hb).1 h).ne

/-- on one ray -/
theorem ray {v a b : P2} (ha : Right v a) (hb : Right v b) (h : area2 v a b = 0) : a ∈ segment ℝ v b ∨ b ∈ segment ℝ v a := by
  obtain ⟨s, t, hs, ht, e1, e2⟩ : ∃ s t : ℝ, 0 < s ∧ 0 < t ∧ s * (a.1 - v.1) = t * (b.1 - v.1) ∧ s * (a.2 - v.2) = t * (b.2 - v.2) := by
    unfold area2 at h
    rcases ha with ha | ⟨ha, ha'⟩ <;> rcases hb with hb | ⟨hb, hb'⟩
    · exact ⟨b.1 - v.1, a.1 - v.1, by linarith, by linarith, by ring, by linarith⟩
    · exfalso; rw [← hb] at h; nlinarith
    · exfalso; rw [← ha] at h; nlinarith
    · exact ⟨b.2 - v.2, a.2 - v.2, by linarith, by linarith, by rw [← ha, ← hb]; ring, by ring⟩
  rcases le_total t s with hts | hts
  · left
    refine ⟨1 - t / s, t / s, by rw [sub_nonneg, div_le_one hs]; exact hts, by positivity, by ring, ?_⟩
    ext
    · simp only [Prod.fst_add, Prod.smul_fst, smul_eq_mul]
      field_simp; linarith
    · simp only [Prod.snd_add, Prod.smul_snd, smul_eq_mul]
      field_simp; linarith
  · right
    refine ⟨1 - s / t, s / t, by rw [sub_nonneg, div_le_one ht]; exact hts, by positivity, by ring, ?_⟩
    ext
    · simp only [Prod.fst_add, Prod.smul_fst, smul_eq_mul]
      field_simp; linarith
    · simp only [Prod.snd_add, Prod.smul_snd, smul_eq_mul]
      field_simp; linarith

/-- a point in a triangle -/
theorem in_triangle {C : Set P2} (hC : Convex ℝ C) {p q r x : P2} (hp : p ∈ C) (hq : q ∈ C) (hr : r ∈ C) (h1 : 0 ≤ area2 p q x) (h2 : 0 ≤ area2 q r x)
    (h3 : 0 ≤ area2 r p x) (h : 0 < area2 p q r) : x ∈ C := by
  have hsum : area2 q r x + area2 r p x + area2 p q x = area2 p q r := by unfold area2; ring
  have := hC.sum_mem (t := Finset.univ) (w := ![area2 q r x / area2 p q r, area2 r p x / area2 p q r, area2 p q x / area2 p q r]) (z := ![p, q, r])
    (by intro i _; fin_cases i <;> simp <;> positivity)
    (by simp only [Fin.sum_univ_three, Matrix.cons_val_zero, Matrix.cons_val_one, Matrix.cons_val_two, Matrix.head_cons, Matrix.tail_cons]
        rw [← add_div, ← add_div, hsum, div_self h.ne'])
    (by intro i _; fin_cases i <;> simpa)
  have e : ∑ i, (![area2 q r x / area2 p q r, area2 r p x / area2 p q r, area2 p q x / area2 p q r] i) • (![p, q, r] : Fin 3 → P2) i = x := by
    simp only [Fin.sum_univ_three, Matrix.cons_val_zero, Matrix.cons_val_one, Matrix.cons_val]
    ext
    · simp only [Prod.fst_add, Prod.smul_fst, smul_eq_mul]
      field_simp
      unfold area2; ring
    · simp only [Prod.snd_add, Prod.smul_snd, smul_eq_mul]
      field_simp
      unfold area2; ring
  rwa [e] at this

theorem left_convex (a b : P2) : Convex ℝ {p | 0 ≤ area2 a b p} := by
  intro x hx y hy s t hs ht hst
  have e : area2 a b (s • x + t • y) = s * area2 a b x + t * area2 a b y := by
    have : t = 1 - s := by linarith
    subst this
    simp only [area2, Prod.fst_add, Prod.snd_add, Prod.smul_fst, Prod.smul_snd, smul_eq_mul]
    ring
  show 0 ≤ area2 a b _
  rw [e]
  exact add_nonneg (mul_nonneg hs hx) (mul_nonneg ht hy)

/-- the corners, as a set -/
theorem corners (S : Finset P2) : ∃ Q ⊆ S, convexHull ℝ (Q : Set P2) = convexHull ℝ (S : Set P2) ∧ ∀ q ∈ Q, q ∉ convexHull ℝ ((Q : Set P2) \ {q}) := by
  classical
  induction S using Finset.strongInduction with
  | H S ih =>
    by_cases h : ∀ q ∈ S, q ∉ convexHull ℝ ((S : Set P2) \ {q})
    · exact ⟨S, subset_rfl, rfl, h⟩
    · push Not at h
      obtain ⟨q, hq, hh⟩ := h
      obtain ⟨Q, h1, h2, h3⟩ := ih (S.erase q) (Finset.erase_ssubset hq)
      refine ⟨Q, h1.trans (Finset.erase_subset _ _), ?_, h3⟩
      rw [h2, Finset.coe_erase]
      refine subset_antisymm (convexHull_mono Set.sdiff_subset) (convexHull_min ?_ (convex_convexHull ℝ _))
      intro x hx
      by_cases hxq : x = q
      · rw [hxq]; exact hh
      · exact subset_convexHull ℝ _ ⟨hx, hxq⟩

theorem zip_split {γ : Type} {z : γ} {e : γ × γ} : ∀ (l : List γ) (a : γ), e ∈ (a :: l).zip (l ++ [z]) → ∃ l1 l2, a :: l ++ [z] = l1 ++ e.1 :: e.2 :: l2
  | [], a, h => by
    simp at h
    exact ⟨[], [], by rw [h]; rfl⟩
  | b :: l, a, h => by
    rw [List.cons_append, List.zip_cons_cons, List.mem_cons] at h
    rcases h with rfl | h
    · exact ⟨[], l ++ [z], rfl⟩
    · obtain ⟨l1, l2, e⟩ := zip_split l b h
      exact ⟨a :: l1, l2, by rw [List.cons_append, e]; rfl⟩

/-- the corners in their order -/
theorem order {Q : Finset P2} (hne : Q.Nonempty) (hQ : ∀ q ∈ Q, q ∉ convexHull ℝ ((Q : Set P2) \ {q})) :
    ∃ qs : List P2, qs.Nodup ∧ (∀ q, q ∈ qs ↔ q ∈ Q) ∧ ∀ e ∈ cyclicPairs qs, ∀ p ∈ Q, 0 ≤ area2 e.1 e.2 p := by
  classical
  obtain ⟨v, hv, hmin⟩ := Finset.exists_min_image Q (fun q => toLex q) hne
  have hR : ∀ a ∈ Q.erase v, Right v a := by
    intro a ha
    obtain ⟨ha1, ha2⟩ := Finset.mem_erase.1 ha
    have : toLex v < toLex a := lt_of_le_of_ne (hmin a ha2) fun h => ha1 (toLex.injective h).symm
    rwa [Prod.Lex.toLex_lt_toLex] at this
  have hA : ∀ a ∈ Q.erase v, ∀ b ∈ Q.erase v, a ≠ b → area2 v a b ≠ 0 := by
    intro a ha b hb hab h
    obtain ⟨ha1, ha2⟩ := Finset.mem_erase.1 ha
    obtain ⟨hb1, hb2⟩ := Finset.mem_erase.1 hb
    rcases ray (hR a ha) (hR b hb) h with h | h
    · have m1 : v ∈ (Q : Set P2) \ {a} := ⟨hv, ha1.symm⟩
      have m2 : b ∈ (Q : Set P2) \ {a} := ⟨hb2, hab.symm⟩
      exact hQ a ha2 ((convex_convexHull ℝ _).segment_subset (subset_convexHull ℝ _ m1) (subset_convexHull ℝ _ m2) h)
    · have m1 : v ∈ (Q : Set P2) \ {b} := ⟨hv, hb1.symm⟩
      have m2 : a ∈ (Q : Set P2) \ {b} := ⟨ha2, hab⟩
      exact hQ b hb2 ((convex_convexHull ℝ _).segment_subset (subset_convexHull ℝ _ m1) (subset_convexHull ℝ _ m2) h)
  let l := (Q.erase v).toList.insertionSort (fun a b => key v a ≤ key v b)
  have hperm : l.Perm (Q.erase v).toList := List.perm_insertionSort _ _
  have hmem : ∀ a, a ∈ l ↔ a ∈ Q.erase v := fun a => by rw [hperm.mem_iff, Finset.mem_toList]
  have hnd : l.Nodup := hperm.nodup_iff.2 (Finset.nodup_toList _)
  have hs0 : l.Pairwise (fun a b => key v a ≤ key v b) := by
    have : Std.Total (fun a b : P2 => key v a ≤ key v b) := ⟨fun a b => le_total _ _⟩
    have : IsTrans P2 (fun a b : P2 => key v a ≤ key v b) := ⟨fun a b c => le_trans⟩
    exact List.pairwise_insertionSort _ _
  have hs : l.Pairwise (fun a b => 0 < area2 v a b) := by
    have := hs0.and hnd
    refine this.imp_of_mem ?_
    rintro a b ha hb ⟨h1, h2⟩
    have ha := (hmem a).1 ha
    have hb := (hmem b).1 hb
    exact (area_pos_iff (hR a ha) (hR b hb)).2 (lt_of_le_of_ne h1 (key_ne (hR a ha) (hR b hb) (hA a ha b hb h2)))
  have hvl : v ∉ l := fun h => absurd ((hmem v).1 h) (Finset.notMem_erase v Q)
  refine ⟨v :: l, List.nodup_cons.2 ⟨hvl, hnd⟩, fun q => ?_, ?_⟩
  · rw [List.mem_cons, hmem, Finset.mem_erase]
    constructor
    · rintro (rfl | h); exacts [hv, h.2]
    · intro h; by_cases e : q = v; exacts [Or.inl e, Or.inr ⟨e, h⟩]
  · intro e he p hp
    have hp' : p = v ∨ p ∈ l := by
      by_cases h : p = v
      · exact Or.inl h
      · exact Or.inr ((hmem p).2 (Finset.mem_erase.2 ⟨h, hp⟩))
    have hcp : cyclicPairs (v :: l) = (v :: l).zip (l ++ [v]) := by simp [cyclicPairs]
    rw [hcp] at he
    obtain ⟨l1, l2, hl⟩ := zip_split l v he
    obtain ⟨a, b⟩ := e
    simp only at hl ⊢
    have inQ : ∀ x ∈ l, x ∈ Q := fun x hx => (Finset.mem_erase.1 ((hmem x).1 hx)).2
    have z0 : ∀ x y : P2, area2 x y x = 0 := fun x y => by unfold area2; ring
    have z1 : ∀ x y : P2, area2 x y y = 0 := fun x y => by unfold area2; ring
    have z2 : ∀ x y : P2, area2 x x y = 0 := fun x y => by unfold area2; ring
    cases l1 with
    | nil =>
      simp only [List.nil_append, List.cons_append, List.cons.injEq] at hl
      obtain ⟨rfl, hl⟩ := hl
      rcases hp' with rfl | hp'
      · rw [z0]
      · cases l' : l with
        | nil => rw [l'] at hp'; simp at hp'
        | cons c m =>
          rw [l'] at hl hp' hs
          simp only [List.cons_append, List.cons.injEq] at hl
          obtain ⟨rfl, -⟩ := hl
          rcases List.mem_cons.1 hp' with rfl | hp'
          · rw [z1]
          · exact ((List.pairwise_cons.1 hs).1 p hp').le
    | cons v' l1 =>
      simp only [List.cons_append, List.cons.injEq] at hl
      obtain ⟨rfl, hl⟩ := hl
      rcases List.eq_nil_or_concat l2 with rfl | ⟨l2, w, rfl⟩
      · have hl' : l ++ [v] = (l1 ++ [a]) ++ [b] := by rw [hl]; simp
        obtain ⟨h1, h2⟩ := List.append_inj' hl' rfl
        simp only [List.cons.injEq, and_true] at h2
        subst h2
        rcases hp' with rfl | hp'
        · rw [z1]
        · rw [h1] at hp' hs
          rw [List.pairwise_append] at hs
          rcases List.mem_append.1 hp' with h | h
          · have := hs.2.2 p h a (by simp)
            unfold area2 at this ⊢; linarith
          · rw [List.mem_singleton.1 h]; unfold area2; linarith
      · have hl' : l ++ [v] = (l1 ++ a :: b :: l2) ++ [w] := by rw [hl]; simp
        obtain ⟨h1, -⟩ := List.append_inj' hl' rfl
        have ha : a ∈ l := by rw [h1]; simp
        have hb : b ∈ l := by rw [h1]; simp
        rw [h1, List.pairwise_append, List.pairwise_cons, List.pairwise_cons] at hs
        obtain ⟨-, ⟨hab, hb2, -⟩, h12⟩ := hs
        have vab := hab b (by simp)
        rcases hp' with rfl | hp'
        · rw [area_cycle]; exact vab.le
        · have hpm := hp'
          rw [h1] at hp'
          by_contra hneg
          push Not at hneg
          have hpa : p ≠ a := by rintro rfl; rw [z0] at hneg; exact lt_irrefl _ hneg
          have hpb : p ≠ b := by rintro rfl; rw [z1] at hneg; exact lt_irrefl _ hneg
          have hab' : a ≠ b := by rintro rfl; rw [z1] at vab; exact lt_irrefl _ vab
          have hva : v ≠ a := fun h => hvl (h ▸ ha)
          have hvb : v ≠ b := fun h => hvl (h ▸ hb)
          rcases List.mem_append.1 hp' with h | h
          · -- `a` would be in the triangle `v p b`
            have vpa := h12 p h a (by simp)
            have vpb := h12 p h b (by simp)
            refine hQ a (inQ a ha) (in_triangle (convex_convexHull ℝ _) (subset_convexHull ℝ _ ⟨hv, hva⟩) (subset_convexHull ℝ _ ⟨hp, hpa⟩)
              (subset_convexHull ℝ _ ⟨inQ b hb, hab'.symm⟩) vpa.le ?_ ?_ vpb)
            · unfold area2 at hneg ⊢; linarith
            · unfold area2 at vab ⊢; linarith
          · rcases List.mem_cons.1 h with h | h
            · exact hpa h
            · rcases List.mem_cons.1 h with h | h
              · exact hpb h
              · -- `b` would be in the triangle `v a p`
                have vap := hab p (by simp [h])
                have vbp := hb2 p h
                refine hQ b (inQ b hb) (in_triangle (convex_convexHull ℝ _) (subset_convexHull ℝ _ ⟨hv, hvb⟩) (subset_convexHull ℝ _ ⟨inQ a ha, hab'⟩)
                  (subset_convexHull ℝ _ ⟨hp, hpb⟩) vab.le ?_ ?_ vap)
                · unfold area2 at hneg ⊢; linarith
                · unfold area2 at vbp ⊢; linarith

theorem Right.trans {a b c : P2} (h1 : Right a b) (h2 : Right b c) : Right a c := by
  rcases h1 with h1 | ⟨h1, h1'⟩ <;> rcases h2 with h2 | ⟨h2, h2'⟩
  · exact Or.inl (h1.trans h2)
  · exact Or.inl (h2 ▸ h1)
  · exact Or.inl (h1 ▸ h2)
  · exact Or.inr ⟨h1.trans h2, h1'.trans h2'⟩

theorem right_total {a b : P2} (h : a ≠ b) : Right a b ∨ Right b a := by
  rcases lt_trichotomy a.1 b.1 with h1 | h1 | h1
  · exact Or.inl (Or.inl h1)
  · rcases lt_trichotomy a.2 b.2 with h2 | h2 | h2
    · exact Or.inl (Or.inr ⟨h1, h2⟩)
    · exact absurd (Prod.ext h1 h2) h
    · exact Or.inr (Or.inr ⟨h1.symm, h2⟩)
  · exact Or.inr (Or.inl h1)

/-- of three points in line one is between the others -/
theorem between {a b c : P2} (h : area2 a b c = 0) : a ∈ segment ℝ b c ∨ b ∈ segment ℝ a c ∨ c ∈ segment ℝ a b := by
  by_cases ab : a = b
  · exact Or.inl (ab ▸ left_mem_segment ℝ a c)
  by_cases ac : a = c
  · exact Or.inl (ac ▸ right_mem_segment ℝ b a)
  by_cases bc : b = c
  · exact Or.inr (Or.inl (bc ▸ right_mem_segment ℝ a b))
  have third : Right c a → Right c b → a ∈ segment ℝ b c ∨ b ∈ segment ℝ a c ∨ c ∈ segment ℝ a b := by
    intro h1 h2
    rcases ray h1 h2 (by unfold area2 at h ⊢; linarith) with k | k
    · exact Or.inl (segment_symm ℝ c b ▸ k)
    · exact Or.inr (Or.inl (segment_symm ℝ c a ▸ k))
  rcases right_total ab with h1 | h1
  · rcases right_total ac with h2 | h2
    · rcases ray h1 h2 h with k | k
      · exact Or.inr (Or.inl k)
      · exact Or.inr (Or.inr k)
    · exact third h2 (h2.trans h1)
  · rcases right_total bc with h2 | h2
    · rcases ray h1 h2 (by unfold area2 at h ⊢; linarith) with k | k
      · exact Or.inl k
      · exact Or.inr (Or.inr (segment_symm ℝ b a ▸ k))
    · exact third (h2.trans h1) h2

theorem seg_area {x y a b c : P2} (ha : a ∈ segment ℝ x y) (hb : b ∈ segment ℝ x y) (hc : c ∈ segment ℝ x y) : area2 a b c = 0 := by
  rw [segment_eq_image] at ha hb hc
  obtain ⟨s, -, rfl⟩ := ha
  obtain ⟨t, -, rfl⟩ := hb
  obtain ⟨r, -, rfl⟩ := hc
  simp only [area2, Prod.fst_add, Prod.snd_add, Prod.smul_fst, Prod.smul_snd, smul_eq_mul]
  ring

/-- not all the points are in line -/
def Spread (ps : List P2) : Prop := ∃ a ∈ ps, ∃ b ∈ ps, ∃ c ∈ ps, area2 a b c ≠ 0

/-- leaving out a coordinate of three points of a plane -/
theorem spread_drop {n : V3 ℝ} {c : ℝ} {d : ℕ} (hd : comp d n ≠ 0) {v : List (V3 ℝ)} (hpl : ∀ p ∈ v, inner3 n p = c)
    (hs : ∃ p ∈ v, ∃ q ∈ v, ∃ r ∈ v, cross3 (vec3 p q) (vec3 p r) ≠ zero3) : Spread (v.map (dropDim d)) := by
  obtain ⟨p, hp, q, hq, r, hr, h⟩ := hs
  refine ⟨_, List.mem_map_of_mem hp, _, List.mem_map_of_mem hq, _, List.mem_map_of_mem hr, fun h0 => h ?_⟩
  have e1 := hpl p hp
  have e2 := hpl q hq
  have e3 := hpl r hr
  set w := cross3 (vec3 p q) (vec3 p r) with hw
  have k1 : n.y * w.z = n.z * w.y := by
    simp only [hw, cross3, vec3, inner3] at *
    linear_combination (r.x - p.x) * (e1 - e2) - (q.x - p.x) * (e1 - e3)
  have k2 : n.z * w.x = n.x * w.z := by
    simp only [hw, cross3, vec3, inner3] at *
    linear_combination (r.y - p.y) * (e1 - e2) - (q.y - p.y) * (e1 - e3)
  have k3 : n.x * w.y = n.y * w.x := by
    simp only [hw, cross3, vec3, inner3] at *
    linear_combination (r.z - p.z) * (e1 - e2) - (q.z - p.z) * (e1 - e3)
  have wx : w.x = (q.y - p.y) * (r.z - p.z) - (q.z - p.z) * (r.y - p.y) := rfl
  have wy : w.y = (q.z - p.z) * (r.x - p.x) - (q.x - p.x) * (r.z - p.z) := rfl
  have wz : w.z = (q.x - p.x) * (r.y - p.y) - (q.y - p.y) * (r.x - p.x) := rfl
  unfold comp at hd
  unfold dropDim at h0
  by_cases d0 : d = 0
  · simp only [d0, if_true] at hd h0
    have z : w.x = 0 := by simp only [area2] at h0; linarith
    rw [z] at k2 k3
    have y1 : w.y = 0 := by rcases mul_eq_zero.1 (k3.trans (mul_zero _)) with h | h; exacts [absurd h hd, h]
    have y2 : w.z = 0 := by rcases mul_eq_zero.1 (k2.symm.trans (mul_zero _)) with h | h; exacts [absurd h hd, h]
    ext <;> assumption
  · by_cases d1 : d = 1
    · simp only [d1, one_ne_zero, if_false, if_true] at hd h0
      have z : w.y = 0 := by simp only [area2] at h0; linarith
      rw [z] at k1 k3
      have y1 : w.x = 0 := by rcases mul_eq_zero.1 (k3.symm.trans (mul_zero _)) with h | h; exacts [absurd h hd, h]
      have y2 : w.z = 0 := by rcases mul_eq_zero.1 (k1.trans (mul_zero _)) with h | h; exacts [absurd h hd, h]
      ext <;> assumption
    · simp only [d0, d1, if_false] at hd h0
      have z : w.z = 0 := by simp only [area2] at h0; linarith
      rw [z] at k1 k2
      have y1 : w.x = 0 := by rcases mul_eq_zero.1 (k2.trans (mul_zero _)) with h | h; exacts [absurd h hd, h]
      have y2 : w.y = 0 := by rcases mul_eq_zero.1 (k1.symm.trans (mul_zero _)) with h | h; exacts [absurd h hd, h]
      ext <;> assumption

end HE
open HE

/-- **C154.** Every list of points of the plane, if it is not empty, has a convex hull in the sense of `HullSpec`: the routine that the properties of
`convexify_planar_curve` assume is possible for all inputs, with repeated points and with points in line. -/
theorem C154_hull (ps : List (ℝ × ℝ)) (hps : ps ≠ []) : ∃ idx, HullSpec ps idx := by
  classical
  obtain ⟨Q, h1, h2, h3⟩ := corners ps.toFinset
  have hne : Q.Nonempty := by
    obtain ⟨p, hp⟩ := List.exists_mem_of_ne_nil ps hps
    have : p ∈ convexHull ℝ (Q : Set P2) := by rw [h2]; exact subset_convexHull ℝ _ (by simpa using hp)
    rcases Q.eq_empty_or_nonempty with rfl | h
    · simp at this
    · exact h
  obtain ⟨qs, hnd, hmem, hleft⟩ := order hne h3
  have hset : {q | q ∈ qs} = (Q : Set P2) := by ext q; exact hmem q
  have hsub : ∀ q ∈ qs, q ∈ ps := fun q hq => by simpa using h1 ((hmem q).1 hq)
  refine ⟨qs.map fun q => ps.idxOf q, ?_, ?_, ?_⟩
  · obtain ⟨q, hq⟩ := hne
    intro h
    rw [List.map_eq_nil_iff] at h
    have := (hmem q).2 hq
    rw [h] at this
    simp at this
  · intro i hi
    obtain ⟨q, hq, rfl⟩ := List.mem_map.1 hi
    exact List.idxOf_lt_length_of_mem (hsub q hq)
  · intro qs' hp
    have e : qs' = qs := by
      refine List.map_injective_iff.mpr (Option.some_injective _) ?_
      rw [hp, List.map_map]
      refine List.map_congr_left fun q hq => ?_
      exact List.getElem?_idxOf (hsub q hq)
    subst e
    have hin : ∀ p ∈ ps, p ∈ convexHull ℝ (Q : Set P2) := fun p hp => by rw [h2]; exact subset_convexHull ℝ _ (by simpa using hp)
    refine ⟨fun p hp => ?_, fun k q hk hin => ?_, fun e he p hp => ?_⟩
    · rw [mem_iff, hset]; exact hin p hp
    · have hq : q ∈ Q := (hmem q).1 (List.mem_of_getElem? hk)
      refine h3 q hq ?_
      rw [mem_iff] at hin
      refine convexHull_mono ?_ hin
      intro x hx
      obtain ⟨i, hik, hi⟩ := List.mem_eraseIdx_iff_getElem?.1 hx
      refine ⟨(hmem x).1 (List.mem_of_getElem? hi), ?_⟩
      rintro rfl
      obtain ⟨i1, i2⟩ := List.getElem?_eq_some_iff.1 hi
      obtain ⟨k1, k2⟩ := List.getElem?_eq_some_iff.1 hk
      exact hik ((hnd.getElem_inj_iff).1 (i2.trans k2.symm))
    · exact convexHull_min (fun q hq => hleft e he q hq) (left_convex e.1 e.2) (hin p hp)

/-- **C154.** A hull has at least three corners exactly if the points are not all in line. -/
theorem C154_count (ps : List (ℝ × ℝ)) (idx : List ℕ) (h : HullSpec ps idx) :
    3 ≤ idx.length ↔ ∃ a ∈ ps, ∃ b ∈ ps, ∃ c ∈ ps, area2 a b c ≠ 0 := by
  obtain ⟨qs, -, hp⟩ := picks_of_mapM h.inRange
  have hh := h.isHull qs hp
  have hlen : idx.length = qs.length := by have := congrArg List.length hp; simpa using this.symm
  have hsub := picks_mem hp
  rw [hlen]
  constructor
  · intro h3
    by_contra hc
    push Not at hc
    match qs, h3, hh, hsub with
    | q0 :: q1 :: q2 :: m, _, hh, hsub =>
      have h0 := hc q0 (hsub q0 (by simp)) q1 (hsub q1 (by simp)) q2 (hsub q2 (by simp))
      have C := fun k => convex_convexHull ℝ {q | q ∈ (q0 :: q1 :: q2 :: m).eraseIdx k}
      have mem : ∀ k q, q ∈ (q0 :: q1 :: q2 :: m).eraseIdx k → q ∈ convexHull ℝ {q | q ∈ (q0 :: q1 :: q2 :: m).eraseIdx k} :=
        fun k q hq => subset_convexHull ℝ _ hq
      rcases between h0 with k | k | k
      · exact hh.minimal 0 q0 rfl ((mem_iff _ _).2 ((C 0).segment_subset (mem 0 q1 (by simp)) (mem 0 q2 (by simp)) k))
      · exact hh.minimal 1 q1 rfl ((mem_iff _ _).2 ((C 1).segment_subset (mem 1 q0 (by simp)) (mem 1 q2 (by simp)) k))
      · exact hh.minimal 2 q2 rfl ((mem_iff _ _).2 ((C 2).segment_subset (mem 2 q0 (by simp)) (mem 2 q1 (by simp)) k))
  · rintro ⟨a, ha, b, hb, c, hc, hne⟩
    by_contra hl
    apply hne
    obtain ⟨x, y, hxy⟩ : ∃ x y, {q | q ∈ qs} ⊆ ({x, y} : Set P2) := by
      match qs, hl with
      | [], _ => exact ⟨0, 0, by simp⟩
      | [x], _ => exact ⟨x, x, by intro q hq; simpa using hq⟩
      | [x, y], _ => exact ⟨x, y, by intro q hq; simpa using hq⟩
      | _ :: _ :: _ :: _, hl => exact absurd (by simp) hl
    have seg : ∀ p ∈ ps, p ∈ segment ℝ x y := fun p hp => by
      rw [← convexHull_pair]
      exact convexHull_mono hxy ((mem_iff _ _).1 (hh.covers p hp))
    exact seg_area (seg a ha) (seg b hb) (seg c hc)

/-- **C154.** The corners of a hull are exactly the points that are not convex combinations of the others. -/
theorem C154_extreme (ps : List (ℝ × ℝ)) (idx : List ℕ) (h : HullSpec ps idx) (qs : List (ℝ × ℝ)) (hp : Picks ps idx qs) (q : ℝ × ℝ) :
    q ∈ qs ↔ q ∈ ps ∧ ¬ InHull2 (open Classical in ps.filter (· ≠ q)) q := by
  classical
  have hh := h.isHull qs hp
  have hsub := picks_mem hp
  constructor
  · intro hq
    refine ⟨hsub q hq, fun hin => ?_⟩
    have hc := (TM.round2 hh hsub).1
    have hex := hc.extreme (List.mem_map_of_mem (f := TM.emb) hq)
    rw [(convex_convexHull ℝ _).mem_extremePoints_iff_convex_sdiff] at hex
    rw [TM.inHull_emb, inHull_iff] at hin
    have : convexHull ℝ (Blmath.TM.pts ((ps.filter (· ≠ q)).map TM.emb)) ⊆ convexHull ℝ (Blmath.TM.pts (qs.map TM.emb)) \ {co (TM.emb q)} := by
      refine convexHull_min ?_ hex.2
      rintro _ ⟨_, hx, rfl⟩
      obtain ⟨x, hxm, rfl⟩ := List.mem_map.1 hx
      obtain ⟨hx1, hx2⟩ := List.mem_filter.1 hxm
      refine ⟨?_, ?_⟩
      · rw [← inHull_iff, ← TM.inHull_emb]; exact hh.covers x hx1
      · intro e
        have hxq : x ≠ q := by simpa using hx2
        apply hxq
        simp only [Set.mem_singleton_iff, co, TM.emb, Prod.mk.injEq, and_true] at e
        exact Prod.ext e.1 e.2
    exact (this hin).2 rfl
  · rintro ⟨hq, hno⟩
    by_contra hqs
    apply hno
    rw [mem_iff]
    refine convexHull_mono ?_ ((mem_iff _ _).1 (hh.covers q hq))
    intro x hx
    simp only [Set.mem_ofPred_eq, List.mem_filter, decide_eq_true_eq]
    refine ⟨hsub x hx, ?_⟩
    simp only [ne_eq]
    rintro rfl
    exact hqs hx

/-- **C154.** `convexify_planar_curve` succeeds on every polyline of a plane that is not in line, if the hull routine answers, rightly, whenever the
points are not in line (as qhull does); at least three corners are left. -/
theorem C154_convexify (env : HullEnv ℝ)
    (hhull : ∀ ps, (∃ a ∈ ps, ∃ b ∈ ps, ∃ c ∈ ps, area2 a b c ≠ 0) → ∃ idx, env.hull ps = .ok idx ∧ HullSpec ps idx)
    (v : List (V3 ℝ)) (closed want : Bool) (na : NormalArg ℝ) (n : V3 ℝ) (c : ℝ) (hn : UsesNormal env v na n) (hn0 : n ≠ zero3)
    (hpl : ∀ p ∈ v, inner3 n p = c) (hs : ∃ p ∈ v, ∃ q ∈ v, ∃ r ∈ v, cross3 (vec3 p q) (vec3 p r) ≠ zero3) :
    ∃ qs idx, convexify env (poly v closed) false want na = .ok (poly qs closed, if want then some idx else none) ∧
      Picks v idx qs ∧ IsHull3 n v qs ∧ 3 ≤ qs.length := by
  have hsp := spread_drop (argmax3_nonzero hn0) hpl hs
  obtain ⟨idx, h1, h2⟩ := hhull _ hsp
  have hv : 2 ≤ v.length := by
    obtain ⟨p, hp, q, hq, r, hr, hne⟩ := hs
    by_contra hl
    apply hne
    match v, hl with
    | [], _ => simp at hp
    | [x], _ =>
      simp only [List.mem_singleton] at hp hq hr
      subst hp hq hr
      simp [cross3, vec3, zero3]
    | _ :: _ :: _, hl => exact absurd (by simp) hl
  obtain ⟨qs, k1, k2, k3⟩ := C57_planar env v closed want na n c hv hn hn0 hpl idx h1 h2
  refine ⟨qs, idx, k1, k2, k3, ?_⟩
  have hlen : qs.length = idx.length := by have := congrArg List.length k2; simpa using this
  rw [hlen]
  exact (C154_count _ _ h2).2 hsp

/-- **C154.** The flattened variant, for a unit normal given as a list or tuple, not within 1e-5 radians of the y axis unless on it: it succeeds whenever
the shadow of the polyline along the normal is not in line, and at least three corners are left.  The inverse is LAPACK's elimination. -/
theorem C154_flatten (env : HullEnv ℝ) (hcv : RotationVectorSpec env.cvRodrigues) (hinv : env.inv = fun a => npInv 3 a)
    (hsound : ∀ ps idx, env.hull ps = .ok idx → HullSpec ps idx)
    (hhull : ∀ ps, (∃ a ∈ ps, ∃ b ∈ ps, ∃ c ∈ ps, area2 a b c ≠ 0) → ∃ idx, env.hull ps = .ok idx)
    (v : List (V3 ℝ)) (closed want : Bool) (n : V3 ℝ) (hn : len3 n = 1)
    (hy : 1 / 100000 ≤ min |Real.arccos n.y - Real.pi| |Real.arccos n.y| ∨ n = ey ∨ n = ⟨0, -1, 0⟩)
    (hs : ∃ p ∈ v, ∃ q ∈ v, ∃ r ∈ v, det3 n (vec3 p q) (vec3 p r) ≠ 0) :
    ∃ qs idx, convexify env (poly v closed) true want (.seq n) = .ok (poly (qs.map (flatAt n v)) closed, if want then some idx else none) ∧
      Picks v idx qs ∧ IsHull3 n (v.map (flatAt n v)) (qs.map (flatAt n v)) ∧ 3 ≤ qs.length := by
  have hv : 2 ≤ v.length := by
    obtain ⟨p, hp, q, hq, r, hr, hne⟩ := hs
    by_contra hl
    apply hne
    match v, hl with
    | [], _ => simp at hp
    | [x], _ =>
      simp only [List.mem_singleton] at hp hq hr
      subst hp hq hr
      simp [det3, inner3, cross3, vec3]
    | _ :: _ :: _, hl => exact absurd (by simp) hl
  obtain ⟨m, π, -, -, hmn, hπ, -, hok⟩ := C57_flatten env hcv (by rw [hinv]; exact C151_inv3.1) (by rw [hinv]; exact C151_inv3.2) hsound v closed want n hv hn
  have e := hmn hy
  subst e
  have h1 : m.x ^ 2 + m.y ^ 2 + m.z ^ 2 = 1 := by rw [← len3_sq, hn]; norm_num
  have hd : ∀ p q, ((π q).1 - (π p).1) ^ 2 + ((π q).2 - (π p).2) ^ 2 =
      (q.x - p.x) ^ 2 + (q.y - p.y) ^ 2 + (q.z - p.z) ^ 2 - inner3 m (vec3 p q) ^ 2 := by
    intro p q
    rw [hπ]
    unfold dist3
    rw [len3_sq]
    simp only [vec3, flatAt, along, inner3]
    linear_combination (m.x * (q.x - p.x) + m.y * (q.y - p.y) + m.z * (q.z - p.z)) ^ 2 * h1
  have hsp : ∃ a ∈ v.map π, ∃ b ∈ v.map π, ∃ c ∈ v.map π, area2 a b c ≠ 0 := by
    obtain ⟨p, hp, q, hq, r, hr, hne⟩ := hs
    refine ⟨_, List.mem_map_of_mem hp, _, List.mem_map_of_mem hq, _, List.mem_map_of_mem hr, fun h0 => hne ?_⟩
    have a1 := hd p q
    have a2 := hd p r
    have a3 := hd q r
    have hdot : ((π q).1 - (π p).1) * ((π r).1 - (π p).1) + ((π q).2 - (π p).2) * ((π r).2 - (π p).2) =
        inner3 (vec3 p q) (vec3 p r) - inner3 m (vec3 p q) * inner3 m (vec3 p r) := by
      simp only [inner3, vec3] at a1 a2 a3 ⊢
      linear_combination (a1 + a2 - a3) / 2
    have hz : area2 (π p) (π q) (π r) ^ 2 = (((π q).1 - (π p).1) ^ 2 + ((π q).2 - (π p).2) ^ 2) * (((π r).1 - (π p).1) ^ 2 + ((π r).2 - (π p).2) ^ 2) -
        (((π q).1 - (π p).1) * ((π r).1 - (π p).1) + ((π q).2 - (π p).2) * ((π r).2 - (π p).2)) ^ 2 := by
      unfold area2; ring
    rw [h0, a1, a2, hdot] at hz
    have hg : det3 m (vec3 p q) (vec3 p r) ^ 2 = 0 := by
      have : det3 m (vec3 p q) (vec3 p r) ^ 2 = (m.x ^ 2 + m.y ^ 2 + m.z ^ 2 - 1) *
            (((q.x - p.x) ^ 2 + (q.y - p.y) ^ 2 + (q.z - p.z) ^ 2) * ((r.x - p.x) ^ 2 + (r.y - p.y) ^ 2 + (r.z - p.z) ^ 2) - inner3 (vec3 p q) (vec3 p r) ^ 2) +
          (((q.x - p.x) ^ 2 + (q.y - p.y) ^ 2 + (q.z - p.z) ^ 2 - inner3 m (vec3 p q) ^ 2) *
            ((r.x - p.x) ^ 2 + (r.y - p.y) ^ 2 + (r.z - p.z) ^ 2 - inner3 m (vec3 p r) ^ 2) -
          (inner3 (vec3 p q) (vec3 p r) - inner3 m (vec3 p q) * inner3 m (vec3 p r)) ^ 2) := by
        simp only [det3, inner3, cross3, vec3]; ring
      rw [this, h1, ← hz]; ring
    exact pow_eq_zero_iff (two_ne_zero) |>.1 hg
  obtain ⟨idx, hidx⟩ := hhull _ hsp
  obtain ⟨qs, k1, k2, k3⟩ := hok idx hidx
  refine ⟨qs, idx, k2, k1, k3, ?_⟩
  have hlen : qs.length = idx.length := by have := congrArg List.length k1; simpa using this
  rw [hlen]
  exact (C154_count _ _ (hsound _ _ hidx)).2 hsp

/-- **C154.** Routines as assumed exist: the inverse is LAPACK's elimination, the hull routine answers exactly for points that are not in line. -/
theorem C154_library : ∃ env : HullEnv ℝ, RotationVectorSpec env.cvRodrigues ∧ env.inv = (fun a => npInv 3 a) ∧
    (∀ ps idx, env.hull ps = .ok idx → HullSpec ps idx) ∧
    ∀ ps, (∃ idx, env.hull ps = .ok idx) ↔ ∃ a ∈ ps, ∃ b ∈ ps, ∃ c ∈ ps, area2 a b c ≠ 0 := by
  classical
  obtain ⟨cv, hcv⟩ := rotationVectorSpec_sat
  have hne : ∀ ps, HE.Spread ps → ps ≠ [] := by
    rintro ps ⟨a, ha, -⟩ rfl
    simp at ha
  refine ⟨⟨fun ps => if h : HE.Spread ps then .ok (C154_hull ps (hne ps h)).choose else .error .ValueError, fun a => npInv 3 a,
    fun _ => .error .ValueError, cv⟩, hcv, rfl, ?_, ?_⟩
  · intro ps idx h
    simp only at h
    split at h
    · rename_i hs; cases h; exact (C154_hull ps (hne ps hs)).choose_spec
    · cases h
  · intro ps
    simp only
    constructor
    · rintro ⟨idx, h⟩
      split at h
      · assumption
      · cases h
    · intro h
      exact ⟨_, dif_pos h⟩

/-- Points with a repetition, one inside and one on a side: a hull, with corners the three that are left. -/
theorem C154_witness :
    (∃ idx, HullSpec [(0, 0), (4, 0), (1, 1), (0, 0), (2, 0), (0, 4)] idx ∧ 3 ≤ idx.length) ∧
    ∃ idx, HullSpec [(0, 0), (1, 1), (3, 3), (2, 2)] idx ∧ idx.length < 3 := by
  constructor
  · obtain ⟨idx, h⟩ := C154_hull [(0, 0), (4, 0), (1, 1), (0, 0), (2, 0), (0, 4)] (by simp)
    exact ⟨idx, h, (C154_count _ _ h).2 ⟨(0, 0), by simp, (4, 0), by simp, (0, 4), by simp, by norm_num [area2]⟩⟩
  · obtain ⟨idx, h⟩ := C154_hull [(0, 0), (1, 1), (3, 3), (2, 2)] (by simp)
    refine ⟨idx, h, ?_⟩
    by_contra hc
    obtain ⟨a, ha, b, hb, c, hc', hne⟩ := (C154_count _ _ h).1 (not_lt.1 hc)
    apply hne
    have d : ∀ p ∈ ([(0, 0), (1, 1), (3, 3), (2, 2)] : List (ℝ × ℝ)), p.1 = p.2 := by
      intro p hp
      simp only [List.mem_cons, List.not_mem_nil, or_false] at hp
      rcases hp with rfl | rfl | rfl | rfl <;> rfl
    unfold area2
    rw [d a ha, d b hb, d c hc']
    ring

/-- A triangle with a point inside it, with the routines of `C154_library`: both variants succeed. -/
theorem C154_convexify_witness : ∃ env : HullEnv ℝ, ∀ flatten, ∃ qs idx,
    convexify env (poly [⟨0, 0, 0⟩, ⟨4, 0, 0⟩, ⟨1, 1, 0⟩, ⟨0, 4, 0⟩] true) flatten true (.seq ⟨0, 0, 1⟩) = .ok (poly qs true, some idx) ∧ 3 ≤ qs.length := by
  obtain ⟨env, h1, h2, h3, h4⟩ := C154_library
  refine ⟨env, fun flatten => ?_⟩
  cases flatten with
  | false =>
    obtain ⟨qs, idx, k1, -, -, k2⟩ := C154_convexify env (fun ps hs => ((h4 ps).2 hs).imp fun idx h => ⟨h, h3 ps idx h⟩)
      [⟨0, 0, 0⟩, ⟨4, 0, 0⟩, ⟨1, 1, 0⟩, ⟨0, 4, 0⟩] true true (.seq ⟨0, 0, 1⟩) ⟨0, 0, 1⟩ 0 (.inl rfl) TM.ez_ne
      (by
        intro p hp
        simp only [List.mem_cons, List.not_mem_nil, or_false] at hp
        rcases hp with rfl | rfl | rfl | rfl <;> norm_num [inner3])
      ⟨⟨0, 0, 0⟩, by simp, ⟨4, 0, 0⟩, by simp, ⟨0, 4, 0⟩, by simp, by norm_num [cross3, vec3, zero3]⟩
    exact ⟨qs, idx, k1, k2⟩
  | true =>
    obtain ⟨qs, idx, k1, -, -, k2⟩ := C154_flatten env h1 h2 h3 (fun ps hs => (h4 ps).2 hs)
      [⟨0, 0, 0⟩, ⟨4, 0, 0⟩, ⟨1, 1, 0⟩, ⟨0, 4, 0⟩] true true ⟨0, 0, 1⟩ (by simp [len3])
      (by
        left
        have hp := Real.pi_gt_three
        simp only [Real.arccos_zero]
        rw [show Real.pi / 2 - Real.pi = -(Real.pi / 2) by ring, abs_neg, abs_of_pos (by positivity), min_self]
        linarith)
      ⟨⟨0, 0, 0⟩, by simp, ⟨4, 0, 0⟩, by simp, ⟨0, 4, 0⟩, by simp, by norm_num [det3, inner3, cross3, vec3]⟩
    exact ⟨_, idx, k1, by simpa using k2⟩

end Blmath.Props
