import Verif.Proofs.Near
import Verif.Spec.Vec
import Verif.Model.Vx
import Verif.Proofs.V3

/-!
The vector operations in rounded arithmetic: every term with its error factor.
-/

namespace Blmath.Spec
open Blmath.Vx
variable {rnd : ℝ → ℝ} {u : ℝ}

theorem dot_rd (h : Rounding rnd u) (a b : V3 (Rd rnd)) :
    ∃ t1 t2 t3, Near u 3 t1 ∧ Near u 3 t2 ∧ Near u 2 t3 ∧
      (V3.dot a b).val = a.x.val * b.x.val * t1 + a.y.val * b.y.val * t2 + a.z.val * b.z.val * t3 := by
  obtain ⟨d1, h1, e1⟩ := h.factor (a.x.val * b.x.val)
  obtain ⟨d2, h2, e2⟩ := h.factor (a.y.val * b.y.val)
  obtain ⟨d3, h3, e3⟩ := h.factor (a.z.val * b.z.val)
  obtain ⟨d4, h4, e4⟩ := h.factor (a.x.val * b.x.val * d1 + a.y.val * b.y.val * d2)
  obtain ⟨d5, h5, e5⟩ := h.factor ((a.x.val * b.x.val * d1 + a.y.val * b.y.val * d2) * d4 + a.z.val * b.z.val * d3)
  refine ⟨d1 * d4 * d5, d2 * d4 * d5, d3 * d5, (h1.mul h.lt_one h4).mul h.lt_one h5, (h2.mul h.lt_one h4).mul h.lt_one h5,
    h3.mul h.lt_one h5, ?_⟩
  simp only [V3.dot, Rd.val_add, Rd.val_mul, e1, e2, e3, e4, e5]
  ring

/-- the dot product of a vector with itself: one factor -/
theorem dot_self_rd (h : Rounding rnd u) (a : V3 (Rd rnd)) :
    ∃ t, Near u 3 t ∧ (V3.dot a a).val = (a.x.val ^ 2 + a.y.val ^ 2 + a.z.val ^ 2) * t := by
  obtain ⟨t1, t2, t3, h1, h2, h3, e⟩ := dot_rd h a a
  obtain ⟨t4, h4, e4⟩ := Near.add (sq_nonneg a.x.val) (sq_nonneg a.y.val) h1 h2
  obtain ⟨t5, h5, e5⟩ := Near.add (add_nonneg (sq_nonneg a.x.val) (sq_nonneg a.y.val)) (sq_nonneg a.z.val) h4
    (h3.mono h.nonneg h.lt_one (by norm_num : 2 ≤ 3))
  exact ⟨t5, h5, by rw [← e5, ← e4, e]; ring⟩

theorem norm_rd (h : Rounding rnd u) (a : V3 (Rd rnd)) : ∃ t, Near u 3 t ∧ (V3.norm a).val = len3 (Rd.vec a) * t := by
  obtain ⟨t, ht, e⟩ := dot_self_rd h a
  obtain ⟨d, hd, ed⟩ := h.factor (Real.sqrt (V3.dot a a).val)
  refine ⟨Real.sqrt t * d, (Near.sqrt (k := 2) h.lt_one (ht.mono h.nonneg h.lt_one (by norm_num))).mul h.lt_one hd, ?_⟩
  have : (V3.norm a).val = rnd (Real.sqrt (V3.dot a a).val) := rfl
  rw [this, ed, e, Real.sqrt_mul (by positivity)]
  simp only [len3, Rd.vec_x, Rd.vec_y, Rd.vec_z]
  ring

/-- sums: every term with its error factor -/
theorem sumL_rd (h : Rounding rnd u) (xs : List (Rd rnd)) : ∃ ts : List ℝ, ts.length = xs.length ∧
    (∀ t ∈ ts, Near u xs.length t) ∧ (sumL xs).val = (List.zipWith (fun x t => x.val * t) xs ts).sum := by
  induction xs with
  | nil => exact ⟨[], rfl, by simp, by simp [sumL, h.zero]⟩
  | cons x xs ih =>
    obtain ⟨ts, hl, hn, e⟩ := ih
    obtain ⟨d, hd, ed⟩ := h.factor (x.val + (sumL xs).val)
    refine ⟨d :: ts.map (· * d), by simp [hl], ?_, ?_⟩
    · intro t ht
      rcases List.mem_cons.mp ht with ht | ht
      · rw [ht]; exact hd.mono h.nonneg h.lt_one (by simp)
      · obtain ⟨t', ht', rfl⟩ := List.mem_map.mp ht
        exact (hn t' ht').mul h.lt_one hd
    · have h1 : (sumL (x :: xs)).val = rnd (x.val + (sumL xs).val) := rfl
      rw [h1, ed, e, add_mul, List.zipWith_cons_cons, List.sum_cons]
      congr 1
      clear hl hn e ed h1
      induction xs generalizing ts with
      | nil => simp
      | cons y ys ih =>
        cases ts with
        | nil => simp
        | cons t ts => simp only [List.map_cons, List.zipWith_cons_cons, List.sum_cons, add_mul, ih ts]; ring

/-- sums of terms that are not negative: one factor -/
theorem zip_factor {k : ℕ} : ∀ (ws ts : List ℝ), ts.length = ws.length → (∀ w ∈ ws, 0 ≤ w) →
    (∀ t ∈ ts, Near u k t) → Near u k 1 → ∃ t, Near u k t ∧ (List.zipWith (· * ·) ws ts).sum = ws.sum * t
  | [], _, _, _, _, h1 => ⟨1, h1, by simp⟩
  | w :: ws, [], hl, _, _, _ => by simp at hl
  | w :: ws, t :: ts, hl, hw, ht, h1 => by
    obtain ⟨t', ht', e⟩ := zip_factor ws ts (by simpa using hl) (fun w' h => hw w' (by simp [h])) (fun t' h => ht t' (by simp [h])) h1
    have hs : 0 ≤ ws.sum := List.sum_nonneg fun w' h => hw w' (by simp [h])
    obtain ⟨t'', h'', e''⟩ := Near.add (hw w (by simp)) hs (ht t (by simp)) ht'
    exact ⟨t'', h'', by simp only [List.zipWith_cons_cons, List.sum_cons, e, e'']⟩

theorem near_one (h : Rounding rnd u) (k : ℕ) : Near u k 1 := Near.one.mono h.nonneg h.lt_one (Nat.zero_le k)

/-- the squared length of a list -/
theorem dotL_self_rd (h : Rounding rnd u) (xs : List (Rd rnd)) : ∃ t, Near u (xs.length + 1) t ∧
    (dotL xs xs).val = rdot (xs.map Rd.val) (xs.map Rd.val) * t := by
  obtain ⟨ts, hl, hn, e⟩ := sumL_rd h (List.zipWith (· * ·) xs xs)
  rw [List.length_zipWith, min_self] at hl hn
  have key : ∀ (xs : List (Rd rnd)) (ts : List ℝ) (n : ℕ), ts.length = xs.length → (∀ t ∈ ts, Near u n t) →
      ∃ ss : List ℝ, ss.length = xs.length ∧ (∀ t ∈ ss, Near u (n + 1) t) ∧
        (List.zipWith (fun (x : Rd rnd) t => x.val * t) (List.zipWith (· * ·) xs xs) ts).sum =
          (List.zipWith (· * ·) (List.zipWith (· * ·) (xs.map Rd.val) (xs.map Rd.val)) ss).sum := by
    intro xs
    induction xs with
    | nil => intro ts n _ _; exact ⟨[], rfl, by simp, by simp⟩
    | cons x xs ih =>
      intro ts n hl hn
      match ts, hl with
      | t :: ts, hl =>
        obtain ⟨ss, h1, h2, h3⟩ := ih ts n (by simpa using hl) (fun t' h => hn t' (by simp [h]))
        obtain ⟨d, hd, ed⟩ := h.factor (x.val * x.val)
        refine ⟨t * d :: ss, by simp [h1], ?_, ?_⟩
        · intro s hs
          rcases List.mem_cons.mp hs with hs | hs
          · rw [hs]; exact (hn t (by simp)).mul h.lt_one hd
          · exact h2 s hs
        · simp only [List.zipWith_cons_cons, List.sum_cons, h3, List.map_cons, Rd.val_mul, ed]
          ring
  obtain ⟨ss, h1, h2, h3⟩ := key xs ts xs.length hl hn
  obtain ⟨t, ht, et⟩ := zip_factor (k := xs.length + 1) (List.zipWith (· * ·) (xs.map Rd.val) (xs.map Rd.val)) ss
    (by simp [h1]) (by
      intro w hw
      have : ∀ l : List ℝ, ∀ w ∈ List.zipWith (· * ·) l l, 0 ≤ w := by
        intro l
        induction l with
        | nil => simp
        | cons a l ih => intro w hw; rcases List.mem_cons.mp hw with hw | hw
                         · rw [hw]; exact mul_self_nonneg a
                         · exact ih w hw
      exact this _ w hw) h2 (near_one h _)
  refine ⟨t, ht, ?_⟩
  unfold dotL rdot
  rw [e, h3, et]

theorem rdot_self_nonneg (l : List ℝ) : 0 ≤ rdot l l := by
  unfold rdot
  apply List.sum_nonneg
  induction l with
  | nil => simp
  | cons a l ih => intro w hw; rcases List.mem_cons.mp hw with hw | hw
                   · rw [hw]; exact mul_self_nonneg a
                   · exact ih w hw

theorem normL_rd (h : Rounding rnd u) (xs : List (Rd rnd)) : ∃ t, Near u (xs.length / 2 + 2) t ∧
    (normL xs).val = rnorm (xs.map Rd.val) * t := by
  obtain ⟨t, ht, e⟩ := dotL_self_rd h xs
  obtain ⟨d, hd, ed⟩ := h.factor (Real.sqrt (dotL xs xs).val)
  refine ⟨Real.sqrt t * d, Near.mul (k := xs.length / 2 + 1) (l := 1) h.lt_one (Near.sqrt h.lt_one
    (ht.mono h.nonneg h.lt_one (by omega))) hd, ?_⟩
  have h1 : (normL xs).val = rnd (Real.sqrt (dotL xs xs).val) := rfl
  rw [h1, ed, e, Real.sqrt_mul (rdot_self_nonneg _)]
  unfold rnorm
  ring

end Blmath.Spec
