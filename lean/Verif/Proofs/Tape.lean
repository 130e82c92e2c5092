import Verif.Proofs.Sides
import Verif.Spec.Hull
import Mathlib.Data.List.Chain
import Mathlib.Data.List.Sort
import Mathlib.Data.List.Dedup
import Mathlib.Tactic.LinearCombination
import Mathlib.Tactic.Linarith
import Mathlib.Tactic.Positivity
import Mathlib.Tactic.FieldSimp

/-!
Facts for property C128: convex polygons are the shortest closed curves through their corners.
-/

namespace Blmath.TM
open Blmath.Spec Blmath.Proofs

/-! ### Going round -/

section order
variable {P : Type} {O : P → P → P → ℝ}

/-- a way of telling left turns from right turns -/
structure Turning (O : P → P → P → ℝ) : Prop where
  cyc : ∀ a b c, O a b c = O b c a
  swap : ∀ a b c, O a c b = -O a b c
  plucker : ∀ q r a b c, O q r b * O q a c = O q r a * O q b c + O q r c * O q a b

/-- `Q` goes round all its points, and no three of them are in line -/
structure Round (O : P → P → P → ℝ) (Q : List P) : Prop where
  nodup : Q.Nodup
  left : ∀ e ∈ cyclicPairs Q, ∀ p ∈ Q, 0 ≤ O e.1 e.2 p
  proper : ∀ a ∈ Q, ∀ b ∈ Q, ∀ c ∈ Q, a ≠ b → b ≠ c → a ≠ c → O a b c ≠ 0

theorem cyclicPairs_rotate (Q : List P) (k : ℕ) : cyclicPairs (Q.rotate k) = (cyclicPairs Q).rotate k := by
  unfold cyclicPairs
  simp only [List.zip]
  rw [List.zipWith_rotate_distrib _ _ _ _ (by simp), List.rotate_rotate, List.rotate_rotate, Nat.add_comm]

theorem Round.rotate {Q : List P} (h : Round O Q) (k : ℕ) : Round O (Q.rotate k) := by
  refine ⟨List.nodup_rotate.mpr h.nodup, ?_, ?_⟩
  · intro e he p hp
    rw [cyclicPairs_rotate, List.mem_rotate] at he
    exact h.left e he p (List.mem_rotate.mp hp)
  · intro a ha b hb c hc
    exact h.proper a (List.mem_rotate.mp ha) b (List.mem_rotate.mp hb) c (List.mem_rotate.mp hc)

theorem isChain_of_pairs {R : P → P → Prop} : ∀ {l : List P}, (∀ e ∈ pairs l, R e.1 e.2) → l.IsChain R
  | [], _ => .nil
  | [_], _ => .singleton _
  | a :: b :: l, h => by
    rw [List.isChain_cons_cons]
    exact ⟨h (a, b) (by simp [pairs]), isChain_of_pairs fun e he => h e (by simp [pairs, he])⟩

theorem pairs_zip : ∀ (l : List P) (z : P), ∀ e ∈ pairs l, e ∈ l.zip (l.tail ++ [z])
  | [], _, e, he => by simp [pairs] at he
  | [_], _, e, he => by simp [pairs] at he
  | a :: b :: l, z, e, he => by
    simp only [pairs, List.mem_cons] at he
    rcases he with rfl | he
    · simp
    · have := pairs_zip (b :: l) z e he
      simp only [List.tail_cons, List.cons_append, List.zip_cons_cons, List.mem_cons] at this ⊢
      exact .inr this

theorem cyclicPairs_cons (q : P) (l : List P) : cyclicPairs (q :: l) = (q :: l).zip (l ++ [q]) := by
  unfold cyclicPairs
  rw [List.rotate_cons_succ, List.rotate_zero]

/-- seen from any corner, the other corners come in the order of their angles -/
theorem sorted_head (hO : Turning O) {q : P} {l : List P} (h : Round O (q :: l)) : l.Pairwise fun b c => 0 < O q b c := by
  cases l with
  | nil => exact .nil
  | cons r l =>
    have hn := h.nodup
    simp only [List.nodup_cons, List.mem_cons, not_or] at hn
    obtain ⟨⟨hqr, hql⟩, hrl, hl⟩ := hn
    have mem : ∀ e ∈ pairs (q :: r :: l), e ∈ cyclicPairs (q :: r :: l) := by
      intro e he
      rw [cyclicPairs_cons]
      exact pairs_zip (q :: r :: l) q e he
    have first : ∀ p ∈ l, 0 < O q r p := by
      intro p hp
      have h1 := h.left (q, r) (mem _ (by simp [pairs])) p (by simp [hp])
      have h2 := h.proper q (by simp) r (by simp) p (by simp [hp]) hqr (fun e => hrl (e ▸ hp)) (fun e => hql (e ▸ hp))
      exact lt_of_le_of_ne h1 (Ne.symm h2)
    refine List.pairwise_cons.mpr ⟨first, ?_⟩
    have tr : IsTrans P (fun b c => 0 < O q r b ∧ 0 < O q r c ∧ 0 < O q b c) := by
      constructor
      rintro a b c ⟨ha, hb, hab⟩ ⟨-, hc, hbc⟩
      refine ⟨ha, hc, ?_⟩
      have := hO.plucker q r a b c
      have h1 := mul_pos ha hbc
      have h2 := mul_pos hc hab
      exact pos_of_mul_pos_right (by linarith) hb.le
    have ch : l.IsChain (fun b c => 0 < O q r b ∧ 0 < O q r c ∧ 0 < O q b c) := by
      refine isChain_of_pairs fun e he => ?_
      have hm : e.1 ∈ l ∧ e.2 ∈ l := by
        have := pairs_zip l q e he
        refine ⟨(List.of_mem_zip this).1, ?_⟩
        clear this
        revert he
        clear * -
        induction l with
        | nil => simp [pairs]
        | cons a l ih =>
          cases l with
          | nil => simp [pairs]
          | cons b l =>
            simp only [pairs, List.mem_cons] at ih ⊢
            rintro (rfl | h)
            · simp
            · exact .inr (ih h)
      have hne : e.1 ≠ e.2 := by
        revert he hl
        clear * -
        induction l with
        | nil => simp [pairs]
        | cons a l ih =>
          cases l with
          | nil => simp [pairs]
          | cons b l =>
            intro hl he
            simp only [pairs, List.mem_cons] at he
            rcases he with rfl | he
            · intro e
              simp only at e
              subst e
              simp at hl
            · exact ih (List.nodup_cons.mp hl).2 he
      refine ⟨first _ hm.1, first _ hm.2, ?_⟩
      have h1 := h.left e (mem e (by
        cases l with
        | nil => simp [pairs] at he
        | cons a l => simp [pairs, he])) q (by simp)
      rw [← hO.cyc] at h1
      have h2 := h.proper q (by simp) e.1 (by simp [hm.1]) e.2 (by simp [hm.2]) (fun e' => hql (e' ▸ hm.1)) hne (fun e' => hql (e' ▸ hm.2))
      exact lt_of_le_of_ne h1 (Ne.symm h2)
    exact (List.isChain_iff_pairwise.mp ch).imp fun h => h.2.2

theorem rotate_to {Q l₁ l₂ : List P} {a : P} (h : Q = l₁ ++ a :: l₂) : Q.rotate l₁.length = a :: (l₂ ++ l₁) := by
  subst h
  rw [List.rotate_append_length_eq]; rfl

/-- all triangles of corners turn left -/
theorem triples (hO : Turning O) {Q : List P} (h : Round O Q) {a b c : P} (hs : [a, b, c].Sublist Q) : 0 < O a b c := by
  obtain ⟨l₁, l₂, rfl, h1, h2⟩ := List.cons_sublist_iff.mp hs
  obtain ⟨s, t, e⟩ := List.append_of_mem h1
  have hr := h.rotate s.length
  rw [rotate_to (show l₁ ++ l₂ = s ++ a :: (t ++ l₂) by rw [e]; simp)] at hr
  have := sorted_head hO hr
  have hsub : [b, c].Sublist (t ++ l₂ ++ s) := (h2.trans (List.sublist_append_right t l₂)).trans (List.sublist_append_left _ _)
  simpa using this.sublist hsub

/-- there is only one way round -/
theorem unique_round (hO : Turning O) {Q Q' : List P} (h : Round O Q) (h' : Round O Q') (hm : ∀ p, p ∈ Q ↔ p ∈ Q') : Q ~r Q' := by
  cases Q with
  | nil =>
    cases Q' with
    | nil => exact List.IsRotated.refl _
    | cons q _ => exact absurd ((hm q).mpr (by simp)) (by simp)
  | cons q l =>
    obtain ⟨s, t, e⟩ := List.append_of_mem ((hm q).mp (by simp))
    have hr := h'.rotate s.length
    have er := rotate_to e
    rw [er] at hr
    have p1 := sorted_head hO h
    have p2 := sorted_head hO hr
    have hperm : l.Perm (t ++ s) := by
      have : (q :: l).Perm (q :: (t ++ s)) := by
        refine (List.perm_ext_iff_of_nodup h.nodup hr.nodup).mpr fun p => ?_
        rw [hm p, ← er, List.mem_rotate]
      exact (List.perm_cons q).mp this
    have : l = t ++ s := by
      refine hperm.eq_of_pairwise ?_ p1 p2
      intro a b _ _ h1 h2
      rw [hO.swap] at h2
      linarith
    rw [this, ← er]
    exact (List.IsRotated.symm ⟨s.length, rfl⟩)

end order

/-! ### Lengths -/

/-- the length of the way from `a` through the points of a list to `z` -/
noncomputable def walk : V3 ℝ → List (V3 ℝ) → V3 ℝ → ℝ
  | a, [], z => dist3 a z
  | a, b :: l, z => dist3 a b + walk b l z

/-- the length of the way round -/
noncomputable def tour : List (V3 ℝ) → ℝ
  | [] => 0
  | a :: l => walk a l a

theorem walk_append (a b z : V3 ℝ) : ∀ (l m : List (V3 ℝ)), walk a (l ++ b :: m) z = walk a l b + walk b m z := by
  intro l
  induction l generalizing a with
  | nil => intro m; rfl
  | cons c l ih => intro m; simp only [List.cons_append, walk, ih c m]; ring

theorem dist3_self (a : V3 ℝ) : dist3 a a = 0 := dist3_eq_zero.mpr rfl

theorem dist3_nonneg (a b : V3 ℝ) : 0 ≤ dist3 a b := len3_nonneg _

theorem dist_le_walk (a z : V3 ℝ) (l : List (V3 ℝ)) : dist3 a z ≤ walk a l z := by
  induction l generalizing a with
  | nil => exact le_rfl
  | cons b l ih => exact (dist3_triangle a b z).trans (add_le_add le_rfl (ih b))

theorem walk_sublist {l m : List (V3 ℝ)} (h : l.Sublist m) : ∀ a z, walk a l z ≤ walk a m z := by
  induction h with
  | slnil => intro a z; exact le_rfl
  | @cons l m b _ ih =>
    intro a z
    refine (ih a z).trans ?_
    cases m with
    | nil => exact dist3_triangle a b z
    | cons c m =>
      simp only [walk]
      have := dist3_triangle a b c
      linarith
  | cons_cons b _ ih => intro a z; exact add_le_add le_rfl (ih b z)

theorem tour_append (a : V3 ℝ) (l m : List (V3 ℝ)) (ha : a ∈ l ++ m) : tour (l ++ m) = tour (m ++ l) := by
  cases l with
  | nil => simp
  | cons b l =>
    cases m with
    | nil => simp
    | cons c m => simp only [List.cons_append, tour, walk_append]; ring

theorem tour_rotated {l m : List (V3 ℝ)} (h : l ~r m) : tour l = tour m := by
  obtain ⟨k, rfl⟩ := h
  cases hl : l with
  | nil => simp
  | cons a l' =>
    rw [← hl, List.rotate_eq_drop_append_take_mod]
    conv_lhs => rw [← List.take_append_drop (k % l.length) l]
    exact tour_append a _ _ (by rw [List.take_append_drop, hl]; simp)

theorem tour_nonneg (l : List (V3 ℝ)) : 0 ≤ tour l := by
  cases l with
  | nil => exact le_rfl
  | cons a l => exact (dist3_nonneg a a).trans (dist_le_walk a a l)

/-- leaving out points shortens the way round -/
theorem tour_sublist {l m : List (V3 ℝ)} (h : l.Sublist m) : tour l ≤ tour m := by
  cases l with
  | nil => exact tour_nonneg m
  | cons a l =>
    obtain ⟨r₁, r₂, rfl, h1, h2⟩ := List.cons_sublist_iff.mp h
    obtain ⟨s, t, rfl⟩ := List.append_of_mem h1
    have e : tour ((s ++ a :: t) ++ r₂) = tour (a :: (t ++ r₂ ++ s)) := by
      rw [List.append_assoc, List.cons_append, tour_append a s _ (by simp)]
      simp
    rw [e]
    exact walk_sublist ((h2.trans (List.sublist_append_right t r₂)).trans (List.sublist_append_left _ _)) a a

/-- the point at `s` of the way from `a` to `b` -/
noncomputable def at' (a b : V3 ℝ) (s : ℝ) : V3 ℝ := ⟨a.x + s * (b.x - a.x), a.y + s * (b.y - a.y), a.z + s * (b.z - a.z)⟩

theorem dist_at (a b : V3 ℝ) (s t : ℝ) : dist3 (at' a b s) (at' a b t) = |t - s| * dist3 a b := by
  unfold dist3
  rw [← len3_scale]
  congr 1
  ext <;> simp only [vec3, at', scale3] <;> ring

theorem at_zero (a b : V3 ℝ) : at' a b 0 = a := by ext <;> simp [at']

theorem at_one (a b : V3 ℝ) : at' a b 1 = b := by ext <;> simp [at']

/-- what going by `q` costs is least for the neighbours of `q` -/
theorem detour {q r r' p p' x x' : V3 ℝ} {s s' t t' : ℝ} (hs : 0 ≤ s ∧ s ≤ 1) (hs' : 0 ≤ s' ∧ s' ≤ 1) (ht : 0 ≤ t ∧ t ≤ 1)
    (ht' : 0 ≤ t' ∧ t' ≤ 1) (hx : x = at' r r' s) (hx' : x' = at' r r' s') (hp : x = at' q p t) (hp' : x' = at' q p' t') :
    dist3 q r + dist3 q r' - dist3 r r' ≤ dist3 q p + dist3 q p' - dist3 p p' := by
  have main : ∀ {p p' x x' : V3 ℝ} {s s' t t' : ℝ}, s ≤ s' → 0 ≤ s → s' ≤ 1 → 0 ≤ t ∧ t ≤ 1 → 0 ≤ t' ∧ t' ≤ 1 → x = at' r r' s →
      x' = at' r r' s' → x = at' q p t → x' = at' q p' t' →
      dist3 q r + dist3 q r' - dist3 r r' ≤ dist3 q p + dist3 q p' - dist3 p p' := by
    intro p p' x x' s s' t t' hss h0 h1 ht ht' hx hx' hp hp'
    have e1 : dist3 r x = s * dist3 r r' := by
      have := dist_at r r' 0 s
      rwa [at_zero, ← hx, sub_zero, abs_of_nonneg h0] at this
    have e2 : dist3 x x' = (s' - s) * dist3 r r' := by
      have := dist_at r r' s s'
      rwa [← hx, ← hx', abs_of_nonneg (by linarith)] at this
    have e3 : dist3 x' r' = (1 - s') * dist3 r r' := by
      have := dist_at r r' s' 1
      rwa [at_one, ← hx', abs_of_nonneg (by linarith)] at this
    have e4 : dist3 q x = t * dist3 q p := by
      have := dist_at q p 0 t
      rwa [at_zero, ← hp, sub_zero, abs_of_nonneg ht.1] at this
    have e5 : dist3 x p = (1 - t) * dist3 q p := by
      have := dist_at q p t 1
      rwa [at_one, ← hp, abs_of_nonneg (by linarith [ht.2])] at this
    have e6 : dist3 q x' = t' * dist3 q p' := by
      have := dist_at q p' 0 t'
      rwa [at_zero, ← hp', sub_zero, abs_of_nonneg ht'.1] at this
    have e7 : dist3 x' p' = (1 - t') * dist3 q p' := by
      have := dist_at q p' t' 1
      rwa [at_one, ← hp', abs_of_nonneg (by linarith [ht'.2])] at this
    have t1 := dist3_triangle q x r
    have t2 := dist3_triangle q x' r'
    have t3 := dist3_triangle p x p'
    have t4 := dist3_triangle x x' p'
    rw [dist3_comm x r] at t1
    rw [dist3_comm p x] at t3
    linarith
  rcases le_total s s' with h | h
  · exact main h hs.1 hs'.2 ht ht' hx hx' hp hp'
  · have := main h hs'.1 hs.2 ht' ht hx' hx hp' hp
    rw [dist3_comm p' p] at this
    linarith

/-- the turn at `a`, seen against `n` -/
def turn (n a b c : V3 ℝ) : ℝ := det3 n (vec3 a b) (vec3 a c)

theorem turning (n : V3 ℝ) : Turning (turn n) := by
  constructor <;> intros <;> simp only [turn, det3, inner3, cross3, vec3] <;> ring

theorem turning2 : Turning area2 := by
  constructor <;> intros <;> simp only [area2] <;> ring

/-- in a convex quadrilateral the diagonals cross -/
theorem cross {n q r p r' : V3 ℝ} {c : ℝ} (hn : n ≠ zero3) (hq : inner3 n q = c) (hr : inner3 n r = c) (hp : inner3 n p = c)
    (hr' : inner3 n r' = c) (h1 : 0 < turn n q r p) (h2 : 0 < turn n q p r') (h3 : 0 < turn n q r r') (h4 : 0 < turn n r p r') :
    ∃ x s t, (0 ≤ s ∧ s ≤ 1) ∧ (0 ≤ t ∧ t ≤ 1) ∧ x = at' r r' s ∧ x = at' q p t := by
  have hsum : turn n q r p + turn n q p r' = turn n q r r' + turn n r p r' := by
    simp only [turn, det3, inner3, cross3, vec3]; ring
  have hnn : inner3 n n ≠ 0 := by rw [← len3_mul_self]; exact (mul_pos (len3_pos hn) (len3_pos hn)).ne'
  have e1 : n.x * (r.x - q.x) + n.y * (r.y - q.y) + n.z * (r.z - q.z) = 0 := by simp only [inner3] at hq hr; linarith
  have e2 : n.x * (p.x - q.x) + n.y * (p.y - q.y) + n.z * (p.z - q.z) = 0 := by simp only [inner3] at hq hp; linarith
  have e3 : n.x * (r'.x - q.x) + n.y * (r'.y - q.y) + n.z * (r'.z - q.z) = 0 := by simp only [inner3] at hq hr'; linarith
  have hvol : det3 (vec3 q r) (vec3 q p) (vec3 q r') = 0 := by
    refine (mul_eq_zero.mp ?_).resolve_left hnn
    simp only [det3, inner3, cross3, vec3]
    linear_combination ((p.y - q.y) * (r'.z - q.z) - (p.z - q.z) * (r'.y - q.y)) * n.x * e1 +
      ((p.z - q.z) * (r'.x - q.x) - (p.x - q.x) * (r'.z - q.z)) * n.y * e1 +
      ((p.x - q.x) * (r'.y - q.y) - (p.y - q.y) * (r'.x - q.x)) * n.z * e1 +
      ((r'.y - q.y) * (r.z - q.z) - (r'.z - q.z) * (r.y - q.y)) * n.x * e2 +
      ((r'.z - q.z) * (r.x - q.x) - (r'.x - q.x) * (r.z - q.z)) * n.y * e2 +
      ((r'.x - q.x) * (r.y - q.y) - (r'.y - q.y) * (r.x - q.x)) * n.z * e2 +
      ((r.y - q.y) * (p.z - q.z) - (r.z - q.z) * (p.y - q.y)) * n.x * e3 +
      ((r.z - q.z) * (p.x - q.x) - (r.x - q.x) * (p.z - q.z)) * n.y * e3 +
      ((r.x - q.x) * (p.y - q.y) - (r.y - q.y) * (p.x - q.x)) * n.z * e3
  have key : ∀ f : V3 ℝ → ℝ, (f = V3.x ∨ f = V3.y ∨ f = V3.z) →
      turn n q r p * (f r' - f q) + turn n q p r' * (f r - f q) = turn n q r r' * (f p - f q) := by
    rintro f (rfl | rfl | rfl)
    · have := hvol
      simp only [turn, det3, inner3, cross3, vec3] at this ⊢
      linear_combination n.x * this
    · have := hvol
      simp only [turn, det3, inner3, cross3, vec3] at this ⊢
      linear_combination n.y * this
    · have := hvol
      simp only [turn, det3, inner3, cross3, vec3] at this ⊢
      linear_combination n.z * this
  obtain ⟨A, hA⟩ : ∃ A, A = turn n q r p := ⟨_, rfl⟩
  obtain ⟨B, hB⟩ : ∃ B, B = turn n q p r' := ⟨_, rfl⟩
  obtain ⟨S, hS⟩ : ∃ S, S = turn n q r r' := ⟨_, rfl⟩
  rw [← hA, ← hB, ← hS] at key
  rw [← hA, ← hB, ← hS] at hsum
  rw [← hA] at h1
  rw [← hB] at h2
  rw [← hS] at h3
  have hAB : 0 < A + B := by linarith
  refine ⟨at' r r' (A / (A + B)), A / (A + B), S / (A + B), ⟨by positivity, by rw [div_le_one hAB]; linarith⟩,
    ⟨by positivity, by rw [div_le_one hAB]; linarith⟩, rfl, ?_⟩
  have kx := key V3.x (.inl rfl)
  have ky := key V3.y (.inr (.inl rfl))
  have kz := key V3.z (.inr (.inr rfl))
  ext <;> simp only [at'] <;> field_simp
  · linear_combination kx
  · linear_combination ky
  · linear_combination kz

/-- of all the closed ways through the corners of a convex polygon, the one round it is a shortest -/
theorem tour_le {n : V3 ℝ} {c : ℝ} (hn : n ≠ zero3) : ∀ (Q : List (V3 ℝ)), (∀ q ∈ Q, inner3 n q = c) → Q.Nodup →
    (∀ a b d, [a, b, d].Sublist Q → 0 < turn n a b d) → ∀ W : List (V3 ℝ), (∀ q ∈ Q, q ∈ W) → tour Q ≤ tour W := by
  classical
  intro Q
  induction Q with
  | nil => intro _ _ _ W _; exact tour_nonneg W
  | cons q l ih =>
    intro hpl hnd htr W hW
    cases l with
    | nil =>
      have : tour [q] = 0 := dist3_self q
      rw [this]; exact tour_nonneg W
    | cons r l =>
      -- each corner once
      obtain ⟨V, hV⟩ : ∃ V, V = (W.filter (· ∈ q :: r :: l)).dedup := ⟨_, rfl⟩
      have hVs : V.Sublist W := hV ▸ (List.dedup_sublist _).trans List.filter_sublist
      have hVn : V.Nodup := hV ▸ List.nodup_dedup _
      have hVm : ∀ p, p ∈ V ↔ p ∈ q :: r :: l := by
        intro p
        rw [hV, List.mem_dedup, List.mem_filter]
        simp only [decide_eq_true_eq]
        exact ⟨fun h => h.2, fun h => ⟨hW p h, h⟩⟩
      refine le_trans ?_ (tour_sublist hVs)
      obtain ⟨s, t, e⟩ := List.append_of_mem ((hVm q).mpr (by simp))
      have er := rotate_to e
      have etour : tour V = tour (q :: (t ++ s)) := tour_rotated ⟨_, er⟩
      rw [etour]
      have hU : ∀ p, p ∈ t ++ s ↔ p ∈ r :: l := by
        intro p
        have hn1 : (q :: (t ++ s)).Nodup := er ▸ List.nodup_rotate.mpr hVn
        have h1 : p ∈ q :: (t ++ s) ↔ p ∈ q :: r :: l := by rw [← er, List.mem_rotate]; exact hVm p
        have a1 := (List.nodup_cons.mp hn1).1
        have a2 := (List.nodup_cons.mp hnd).1
        simp only [List.mem_cons] at h1 ⊢
        constructor
        · intro h
          rcases h1.mp (.inr h) with rfl | h
          · exact absurd h a1
          · exact h
        · intro h
          rcases h1.mpr (.inr h) with rfl | h'
          · exact absurd (by simpa using h) a2
          · exact h'
      obtain ⟨U, eU⟩ : ∃ U, U = t ++ s := ⟨_, rfl⟩
      rw [← eU] at hU ⊢
      have hih := ih (fun p hp => hpl p (List.mem_cons_of_mem _ hp)) (List.nodup_cons.mp hnd).2
        (fun a b d h => htr a b d (h.trans (List.sublist_cons_self _ _))) U (fun p hp => (hU p).mpr hp)
      -- the neighbours of `q` in both ways round
      have ends : ∀ (a : V3 ℝ) (m : List (V3 ℝ)), ∃ z ∈ a :: m, (m = [] ∧ z = a ∨ ∃ m', m = m' ++ [z]) ∧
          tour (q :: a :: m) = tour (a :: m) + (dist3 q a + dist3 q z - dist3 a z) := by
        intro a m
        rcases List.eq_nil_or_concat m with rfl | ⟨m', z, rfl⟩
        · refine ⟨a, by simp, .inl ⟨rfl, rfl⟩, ?_⟩
          simp only [tour, walk, dist3_self, dist3_comm a q]; ring
        · refine ⟨z, by simp, .inr ⟨m', by simp⟩, ?_⟩
          simp only [List.concat_eq_append, tour, walk, walk_append]
          rw [dist3_comm z q, dist3_comm z a]; ring
      cases U with
      | nil => exact absurd ((hU r).mpr (by simp)) (by simp)
      | cons p m =>
        obtain ⟨p', hp', -, e1⟩ := ends p m
        obtain ⟨r', hr', hlast, e2⟩ := ends r l
        have hmeet : ∀ p ∈ r :: l, ∃ x s t, (0 ≤ s ∧ s ≤ 1) ∧ (0 ≤ t ∧ t ≤ 1) ∧ x = at' r r' s ∧ x = at' q p t := by
          intro p hp
          by_cases hpr : p = r
          · exact ⟨r, 0, 1, by norm_num, by norm_num, (at_zero _ _).symm, by rw [hpr, at_one]⟩
          · by_cases hpr' : p = r'
            · exact ⟨r', 1, 1, by norm_num, by norm_num, (at_one _ _).symm, by rw [hpr', at_one]⟩
            · have hpl' : p ∈ l := by simpa [hpr] using hp
              rcases hlast with ⟨rfl, -⟩ | ⟨m', rfl⟩
              · simp at hpl'
              · have hpm : p ∈ m' := by simpa [hpr'] using hpl'
                have s1 : [p, r'].Sublist (m' ++ [r']) := (List.singleton_sublist.mpr hpm).append (List.Sublist.refl [r'])
                refine cross hn (hpl q (by simp)) (hpl r (by simp)) (hpl p (by simp [hpm])) (hpl r' (by simp))
                  (htr _ _ _ ?_) (htr _ _ _ ?_) (htr _ _ _ ?_) (htr _ _ _ ?_)
                · exact ((List.singleton_sublist.mpr hpl').cons_cons r).cons_cons q
                · exact (s1.cons r).cons_cons q
                · exact ((List.singleton_sublist.mpr (by simp)).cons_cons r).cons_cons q
                · exact (s1.cons_cons r).cons q
        obtain ⟨x, s1, t1, hs1, ht1, hx, hx2⟩ := hmeet p ((hU p).mp (by simp))
        obtain ⟨x', s2, t2, hs2, ht2, hx', hx2'⟩ := hmeet p' ((hU p').mp hp')
        have := detour hs1 hs2 ht1 ht2 hx hx' hx2 hx2'
        rw [e1, e2]
        linarith

/-- the length of the closed polyline is that of the way round -/
theorem tour_eq (v : List (V3 ℝ)) : pathLength (circuit v true) = tour v := by
  cases v with
  | nil => simp [pathLength, circuit, pairs, tour]
  | cons a l =>
    have : ∀ (l : List (V3 ℝ)) (b z : V3 ℝ), pathLength (b :: (l ++ [z])) = walk b l z := by
      intro l
      induction l with
      | nil => intro b z; simp [pathLength, pairs, walk]
      | cons c l ih =>
        intro b z
        have := ih c z
        unfold pathLength at this ⊢
        simp only [List.cons_append, pairs, List.map_cons, List.sum_cons, walk] at this ⊢
        rw [this]
    simpa [circuit, tour] using this l a a

end Blmath.TM
