import Verif.Props.Composite
import Verif.Props.FloatError
import Verif.Proofs.FloatError

/-!
Property C97: composite transforms in rounded arithmetic.
-/

namespace Blmath.Props
open Blmath.Geometry Blmath.Spec Blmath.Vx

variable {rnd : ℝ → ℝ} {u : ℝ}

namespace FC

/-- the last row is (0, 0, 0, 1), without rounding error -/
def RowExact (m : Mat 4 4 (Rd rnd)) : Prop := (m 3 0).val = 0 ∧ (m 3 1).val = 0 ∧ (m 3 2).val = 0 ∧ (m 3 3).val = 1

/-- both matrices of a transform are so -/
def PairExact (t : Mat 4 4 (Rd rnd) × Mat 4 4 (Rd rnd)) : Prop := RowExact t.1 ∧ RowExact t.2

/-- matrices given to a call are so -/
def OpExact : TOp (Rd rnd) → Prop
  | .append4 f r => RowExact f ∧ ∀ r', r = some r' → RowExact r'
  | _ => True

/-- the values of the entries -/
def vals (m : Mat 4 4 (Rd rnd)) : Mat 4 4 ℝ := Matrix.of fun i j => (m i j).val

/-- their absolute values -/
def sizes (m : Mat 4 4 (Rd rnd)) : Mat 4 4 ℝ := Matrix.of fun i j => |(m i j).val|

/-- the same transforms without rounding -/
def exactly (st : Composite (Rd rnd)) : Composite ℝ := st.map fun t => (vals t.1, vals t.2)

/-- the same transforms with absolute values for entries -/
def absolutely (st : Composite (Rd rnd)) : Composite ℝ := st.map fun t => (sizes t.1, sizes t.2)

/-- rows of three numbers -/
def rpts (ps : List (V3 (Rd rnd))) : Arr (Rd rnd) := .mat 3 (ps.map V3.toList)

theorem lit0 (h : Rounding rnd u) : (Num.lit 0 : Rd rnd).val = 0 := by rw [Rd.val_lit]; push_cast; exact h.zero
theorem lit1 (h : Rounding rnd u) : (Num.lit 1 : Rd rnd).val = 1 := by rw [Rd.val_lit]; push_cast; exact h.one

theorem exact_pad44 (h : Rounding rnd u) (m : Mat 3 3 (Rd rnd)) : RowExact (pad44 m) := by
  simp only [RowExact, pad44]
  simp [h.zero, h.one]

theorem exact_translation44 (h : Rounding rnd u) (v : V3 (Rd rnd)) : RowExact (translation44 v) := by
  simp only [RowExact, translation44]
  simp [h.zero, h.one]

theorem mul_entry (a b : Mat 4 4 (Rd rnd)) (i j : Fin 4) :
    (Mat.mul a b i j) = a i 0 * b 0 j + (a i 1 * b 1 j + (a i 2 * b 2 j + (a i 3 * b 3 j + Num.lit 0))) := rfl

/-- the last column is (0, 0, 0, 1) -/
def ColExact (m : Mat 4 4 (Rd rnd)) : Prop := RowExact (Mat.tr m)

theorem exact_mul (h : Rounding rnd u) {a b : Mat 4 4 (Rd rnd)} (ha : RowExact a) (hb : RowExact b) : RowExact (Mat.mul a b) := by
  obtain ⟨a0, a1, a2, a3⟩ := ha
  obtain ⟨b0, b1, b2, b3⟩ := hb
  simp only [RowExact, mul_entry, Rd.val_add, Rd.val_mul, a0, a1, a2, a3, b0, b1, b2, b3, lit0 h]
  simp [h.zero, h.one]

theorem exact_mul_col (h : Rounding rnd u) {a b : Mat 4 4 (Rd rnd)} (ha : ColExact a) (hb : ColExact b) : ColExact (Mat.mul a b) := by
  obtain ⟨a0, a1, a2, a3⟩ := ha
  obtain ⟨b0, b1, b2, b3⟩ := hb
  simp only [Mat.tr, Matrix.of_apply] at a0 a1 a2 a3 b0 b1 b2 b3
  simp only [ColExact, RowExact, Mat.tr, Matrix.of_apply, mul_entry, Rd.val_add, Rd.val_mul, a0, a1, a2, a3, b0, b1, b2, b3, lit0 h]
  simp [h.zero, h.one]

theorem exact_eye (h : Rounding rnd u) : RowExact (Mat.eye 4 : Mat 4 4 (Rd rnd)) := by
  simp [RowExact, Mat.eye, h.zero, h.one]

theorem reduceDot_pres {P : Mat 4 4 (Rd rnd) → Prop} (h1 : P (Mat.eye 4)) (hm : ∀ a b, P a → P b → P (Mat.mul a b)) (ms : List (Mat 4 4 (Rd rnd)))
    (h : ∀ m ∈ ms, P m) : P (reduceDot ms) := by
  cases ms with
  | nil => exact h1
  | cons m ms =>
    simp only [reduceDot]
    have h0 := h m (by simp)
    have hs : ∀ x ∈ ms, P x := fun x hx => h x (by simp [hx])
    clear h
    induction ms generalizing m with
    | nil => exact h0
    | cons x xs ih => exact ih (Mat.mul m x) (hm m x h0 (hs x (by simp))) (fun y hy => hs y (by simp [hy]))

/-- the selected transforms -/
def sel {β : Type} (st : List β) (r : Option (Option ℤ × Option ℤ)) : List β :=
  match r with
  | some (start, stop) => pySlice st (start.getD 0) (stop.getD st.length)
  | none => st

theorem mem_sel {β : Type} {st : List β} {r} {t : β} (h : t ∈ sel st r) : t ∈ st := by
  cases r with
  | none => exact h
  | some ab => exact List.mem_of_mem_take (List.mem_of_mem_drop h)

theorem sel_map {β γ : Type} (f : β → γ) (l : List β) (r) : sel (l.map f) r = (sel l r).map f := by
  cases r with
  | none => rfl
  | some ab => simp [sel, pySlice, List.map_drop, List.map_take]

theorem matrixFor_eq {α : Type} [Num α] [Trig α] (st : Composite α) (r) (rev : Bool) :
    matrixFor st r rev = if rev then reduceDot ((sel st r).map (·.2)) else
      if (sel st r).length = 0 then Mat.eye 4 else Mat.tr (reduceDot ((sel st r).map fun t => Mat.tr t.1)) := by
  have e : matrixFor st r rev = (let matrices := (sel st r).map fun t => if rev then t.2 else Mat.tr t.1
      if matrices.length = 0 then Mat.eye 4 else if rev then reduceDot matrices else Mat.tr (reduceDot matrices)) := by
    cases r <;> rfl
  rw [e]
  cases rev
  · simp
  · simp only [if_true, List.length_map]
    split
    · rename_i h
      rw [List.length_eq_zero_iff.mp h]; rfl
    · rfl

theorem exact_matrixFor (h : Rounding rnd u) {st : Composite (Rd rnd)} (hs : ∀ t ∈ st, PairExact t) (r) (rev : Bool) :
    RowExact (matrixFor st r rev) := by
  rw [matrixFor_eq]
  cases rev
  · simp only [Bool.false_eq_true, if_false]
    split
    · exact exact_eye h
    · apply reduceDot_pres (P := ColExact)
      · have := exact_eye (rnd := rnd) h
        simpa [ColExact, RowExact, Mat.tr, Mat.eye] using this
      · exact fun a b => exact_mul_col h
      · intro m hm
        obtain ⟨t, ht, rfl⟩ := List.mem_map.mp hm
        exact (hs t (mem_sel ht)).1
  · simp only [if_true]
    apply reduceDot_pres (P := RowExact) (exact_eye h) (fun a b => exact_mul h)
    intro m hm
    obtain ⟨t, ht, rfl⟩ := List.mem_map.mp hm
    exact (hs t (mem_sel ht)).2

theorem append4_exact {inv} {st : Composite (Rd rnd)} (hs : ∀ t ∈ st, PairExact t)
    (hinv : ∀ a b, RowExact a → inv a = .ok b → RowExact b) {f : Mat 4 4 (Rd rnd)} {r} (hf : RowExact f) (hr : ∀ r', r = some r' → RowExact r') :
    ∀ t ∈ (append4 inv st f r).1, PairExact t := by
  unfold append4
  dsimp only
  split
  · exact hs
  · rename_i r' e
    intro t ht
    simp only [List.mem_append, List.mem_singleton] at ht
    rcases ht with ht | rfl
    · exact hs t ht
    · refine ⟨hf, ?_⟩
      cases r with
      | none => exact hinv f r' hf e
      | some x => cases e; exact hr _ rfl

theorem append3_exact (h : Rounding rnd u) {inv} {st : Composite (Rd rnd)} (hs : ∀ t ∈ st, PairExact t)
    (hinv : ∀ a b, RowExact a → inv a = .ok b → RowExact b) (f : Mat33Arg (Rd rnd)) (r) : ∀ t ∈ (append3 inv st f r).1, PairExact t := by
  have hc : ∀ {f : Mat33Arg (Rd rnd)} {m}, convert33To44 f = .ok m → RowExact m := by
    intro f m hm
    cases f with
    | mat m => cases hm; exact exact_pad44 h m
    | wrong n =>
      simp only [convert33To44] at hm
      split at hm <;> cases hm
  unfold append3
  split
  · exact hs
  · rename_i f' hf
    split
    · exact append4_exact hs hinv (hc hf) (by simp)
    · split
      · exact hs
      · rename_i r' hr
        exact append4_exact hs hinv (hc hf) (by intro x hx; cases hx; exact hc hr)

theorem step_exact (h : Rounding rnd u) {inv} (hinv : ∀ a b, RowExact a → inv a = .ok b → RowExact b) (svd : Svd3 (Rd rnd))
    {st : Composite (Rd rnd)} (hs : ∀ t ∈ st, PairExact t) (op : TOp (Rd rnd)) (hop : OpExact op) : ∀ t ∈ stepT inv svd st op, PairExact t := by
  have hsc : ∀ x, ∀ t ∈ (scaleT inv st x).1, PairExact t := by
    intro x
    unfold scaleT
    split
    · exact hs
    · exact append3_exact h hs hinv _ _
  have hro : ∀ m, ∀ t ∈ (appendRotation inv st m).1, PairExact t := by
    intro m
    cases m with
    | error e => exact hs
    | ok m => exact append3_exact h hs hinv _ _
  cases op with
  | append4 f r => exact append4_exact hs hinv hop.1 hop.2
  | append3 f r => exact append3_exact h hs hinv f r
  | scale x => exact hsc x
  | convertUnits f t =>
    simp only [stepT, convertUnitsT]
    split
    · exact hs
    · exact hsc _
  | translate v => exact append4_exact hs hinv (exact_translation44 h v) (by rintro _ ⟨⟩; exact exact_translation44 h _)
  | reorient up l => exact hro _
  | rotate r => exact hro _

theorem run_exact (h : Rounding rnd u) {inv} (hinv : ∀ a b, RowExact a → inv a = .ok b → RowExact b) (svd : Svd3 (Rd rnd))
    (ops : List (TOp (Rd rnd))) (hops : ∀ op ∈ ops, OpExact op) (st : Composite (Rd rnd)) (hs : ∀ t ∈ st, PairExact t) :
    ∀ t ∈ runT inv svd st ops, PairExact t := by
  induction ops generalizing st with
  | nil => exact hs
  | cons op ops ih =>
    exact ih (fun o ho => hops o (List.mem_cons_of_mem _ ho)) _ (step_exact h hinv svd hs op (hops op List.mem_cons_self))

/-- a row of the matrix applied to a point -/
noncomputable def comp (m : Mat 4 4 (Rd rnd)) (i : Fin 4) (p : V3 (Rd rnd)) : Rd rnd :=
  m i 0 * p.x + (m i 1 * p.y + (m i 2 * p.z + (m i 3 * Num.lit 1 + Num.lit 0)))

theorem applyMatrix_rd (h : Rounding rnd u) {m : Mat 4 4 (Rd rnd)} (hm : RowExact m) (ps : List (V3 (Rd rnd))) :
    applyMatrix m (rpts ps) = .ok (rpts (ps.map fun p => ⟨comp m 0 p, comp m 1 p, comp m 2 p⟩)) := by
  have hrow : ∀ p : V3 (Rd rnd), (m.rows.map fun t => dotL t (p.toList ++ [Num.lit 1])) = [comp m 0 p, comp m 1 p, comp m 2 p, comp m 3 p] := by
    intro p
    simp [Mat.rows, List.ofFn_succ, V3.toList, dotL, sumL, comp]
  have h3 : ∀ p : V3 (Rd rnd), comp m 3 p = Num.lit 1 := by
    intro p
    obtain ⟨h0, h1, h2, h3⟩ := hm
    ext
    simp only [comp, Rd.val_add, Rd.val_mul, h0, h1, h2, h3, lit0 h, lit1 h]
    simp [h.zero, h.one]
  unfold applyMatrix rpts
  have hp : padWithOnes (Arr.mat 3 (ps.map V3.toList)) = .ok (.mat 4 ((ps.map V3.toList).map fun r => r ++ [Num.lit 1])) := by
    simp [padWithOnes]
  rw [hp]
  simp only [ok_bind, List.map_map]
  unfold unpad
  dsimp only
  rw [if_neg (by simp), if_pos]
  · simp only [List.map_map]
    congr 2
  · rw [List.all_eq_true]
    intro r hr
    obtain ⟨p, _, rfl⟩ := List.mem_map.mp hr
    simp only [Function.comp_apply, hrow]
    simp [lastIsOne, h3]

end FC
open FC

/-- **C97.** After any history of calls (those that raise included) in which explicit 4×4 matrices have the last row (0, 0, 0, 1), so has
the matrix of any range, forward or reverse, without any rounding error. -/
theorem C97_last_row (h : Rounding rnd u) (inv) (hinv : ∀ a b, RowExact a → inv a = .ok b → RowExact b) (svd : Svd3 (Rd rnd))
    (ops : List (TOp (Rd rnd))) (hops : ∀ op ∈ ops, OpExact op) (r) (rev : Bool) : RowExact (matrixFor (runT inv svd [] ops) r rev) :=
  exact_matrixFor h (run_exact h hinv svd ops hops [] (by simp)) r rev

/-! ### Errors -/

namespace FC

theorem mul_factors (h : Rounding rnd u) (a b : Fin 4 → Rd rnd) :
    ∃ t : Fin 4 → ℝ, (∀ k, Near u 4 (t k)) ∧
      (a 0 * b 0 + (a 1 * b 1 + (a 2 * b 2 + (a 3 * b 3 + Num.lit 0)))).val = ∑ k, (a k).val * (b k).val * t k := by
  have l1 := h.lt_one
  obtain ⟨d0, n0, e0⟩ := h.factor ((a 0).val * (b 0).val)
  obtain ⟨d1, n1, e1⟩ := h.factor ((a 1).val * (b 1).val)
  obtain ⟨d2, n2, e2⟩ := h.factor ((a 2).val * (b 2).val)
  obtain ⟨d3, n3, e3⟩ := h.factor ((a 3).val * (b 3).val)
  have e4 : rnd ((a 3).val * (b 3).val * d3) = (a 3).val * (b 3).val * d3 := by rw [← e3, h.idem]
  obtain ⟨d5, n5, e5⟩ := h.factor ((a 2).val * (b 2).val * d2 + (a 3).val * (b 3).val * d3)
  obtain ⟨d6, n6, e6⟩ := h.factor ((a 1).val * (b 1).val * d1 + ((a 2).val * (b 2).val * d2 + (a 3).val * (b 3).val * d3) * d5)
  obtain ⟨d7, n7, e7⟩ := h.factor ((a 0).val * (b 0).val * d0 +
    ((a 1).val * (b 1).val * d1 + ((a 2).val * (b 2).val * d2 + (a 3).val * (b 3).val * d3) * d5) * d6)
  refine ⟨![d0 * d7, d1 * d6 * d7, d2 * d5 * d6 * d7, d3 * d5 * d6 * d7], ?_, ?_⟩
  · intro k
    fin_cases k
    · exact (n0.mul l1 n7).mono h.nonneg l1 (by norm_num)
    · exact ((n1.mul l1 n6).mul l1 n7).mono h.nonneg l1 (by norm_num)
    · exact (((n2.mul l1 n5).mul l1 n6).mul l1 n7).mono h.nonneg l1 (by norm_num)
    · exact (((n3.mul l1 n5).mul l1 n6).mul l1 n7).mono h.nonneg l1 (by norm_num)
  · simp only [Rd.val_add, Rd.val_mul, lit0 h, e0, e1, e2, e3, add_zero, e4, e5, e6, e7, Fin.sum_univ_four]
    simp
    ring

/-- the largest relative error of `k` roundings: `(1 - u)^(-k) - 1` -/
noncomputable def rel (u : ℝ) (k : ℕ) : ℝ := ((1 - u) ^ k)⁻¹ - 1

theorem pow_range (h : Rounding rnd u) (k : ℕ) : 0 < (1 - u) ^ k ∧ (1 - u) ^ k ≤ 1 := by
  have l0 := h.nonneg
  have l1 := h.lt_one
  exact ⟨pow_pos (by linarith) k, pow_le_one₀ (by linarith) (by linarith)⟩

theorem rel_nonneg (h : Rounding rnd u) (k : ℕ) : 0 ≤ rel u k := by
  obtain ⟨h1, h2⟩ := pow_range h k
  have := (one_le_inv₀ h1).mpr h2
  unfold rel; linarith

theorem near_rel (h : Rounding rnd u) {k : ℕ} {t : ℝ} (ht : Near u k t) : |t - 1| ≤ rel u k := by
  obtain ⟨h1, h2⟩ := pow_range h k
  obtain ⟨n1, n2⟩ := ht
  unfold rel
  rw [abs_le]
  constructor
  · have : 2 ≤ (1 - u) ^ k + ((1 - u) ^ k)⁻¹ := by
      have e : (1 - u) ^ k + ((1 - u) ^ k)⁻¹ - 2 = (1 - (1 - u) ^ k) ^ 2 / (1 - u) ^ k := by field_simp; ring
      have : 0 ≤ (1 - (1 - u) ^ k) ^ 2 / (1 - u) ^ k := by positivity
      linarith
    linarith
  · have : t ≤ ((1 - u) ^ k)⁻¹ := by rw [← one_div, le_div_iff₀ h1]; exact n2
    linarith

theorem rel_add (h : Rounding rnd u) (k l : ℕ) : 1 + rel u (k + l) = (1 + rel u k) * (1 + rel u l) := by
  unfold rel
  rw [pow_add, mul_inv]; ring

theorem rel_mono (h : Rounding rnd u) {k l : ℕ} (hkl : k ≤ l) : rel u k ≤ rel u l := by
  have l0 := h.nonneg
  have l1 := h.lt_one
  have := inv_anti₀ (pow_range h l).1 (pow_le_pow_of_le_one (by linarith : 0 ≤ 1 - u) (by linarith) hkl)
  unfold rel; linarith

theorem rel_le_gam (h : Rounding rnd u) {k : ℕ} (hk : k * u < 1) : rel u k ≤ gam u k := by
  have hn : Near u k ((1 - u) ^ k)⁻¹ := by
    have h1 := (pow_range h k).1
    refine Near.inv h.lt_one ⟨le_refl _, ?_⟩
    have := (pow_range h k).2
    nlinarith
  have := hn.gam_bound h.nonneg hk h.lt_one
  exact (le_abs_self _).trans this

/-- one more factor in a product with an error -/
theorem term_err (h : Rounding rnd u) {m l : ℕ} {a' a n b t : ℝ} (h1 : |a' - a| ≤ rel u m * n) (h2 : |a| ≤ n) (ht : Near u l t) :
    |a' * b * t - a * b| ≤ rel u (m + l) * (n * |b|) ∧ |a * b| ≤ n * |b| := by
  have hr := near_rel h ht
  have hn : 0 ≤ n := (abs_nonneg _).trans h2
  have e : a' * b * t - a * b = ((a' - a) * t + a * (t - 1)) * b := by ring
  have ht' : |t| ≤ 1 + rel u l := by
    calc |t| = |1 + (t - 1)| := by ring_nf
      _ ≤ |1| + |t - 1| := abs_add_le _ _
      _ ≤ 1 + rel u l := by rw [abs_one]; linarith
  have e2 : rel u (m + l) = rel u m * (1 + rel u l) + rel u l := by
    have := rel_add h m l
    linarith
  constructor
  · rw [e, abs_mul, ← mul_assoc]
    apply mul_le_mul_of_nonneg_right _ (abs_nonneg b)
    calc |(a' - a) * t + a * (t - 1)| ≤ |a' - a| * |t| + |a| * |t - 1| := by
          refine (abs_add_le _ _).trans (by rw [abs_mul, abs_mul])
      _ ≤ (rel u m * n) * (1 + rel u l) + n * rel u l := by
          have hm := rel_nonneg h m
          have hl := rel_nonneg h l
          exact add_le_add (mul_le_mul h1 ht' (abs_nonneg _) (by positivity)) (mul_le_mul h2 hr (abs_nonneg _) hn)
      _ = rel u (m + l) * n := by rw [e2]; ring
  · rw [abs_mul]; exact mul_le_mul_of_nonneg_right h2 (abs_nonneg b)

theorem sum_err {e : ℝ} {x y z : Fin 4 → ℝ} (h : ∀ k, |x k - y k| ≤ e * z k ∧ |y k| ≤ z k) :
    |∑ k, x k - ∑ k, y k| ≤ e * ∑ k, z k ∧ |∑ k, y k| ≤ ∑ k, z k := by
  constructor
  · rw [← Finset.sum_sub_distrib, Finset.mul_sum]
    exact (Finset.abs_sum_le_sum_abs _ _).trans (Finset.sum_le_sum fun k _ => (h k).1)
  · exact (Finset.abs_sum_le_sum_abs _ _).trans (Finset.sum_le_sum fun k _ => (h k).2)

/-- a rounded matrix close to an exact one -/
def CloseTo (u : ℝ) (m : ℕ) (M : Mat 4 4 (Rd rnd)) (A N : Mat 4 4 ℝ) : Prop :=
  ∀ i j, |(M i j).val - A i j| ≤ rel u m * N i j ∧ |A i j| ≤ N i j

theorem close_vals (h : Rounding rnd u) (M : Mat 4 4 (Rd rnd)) : CloseTo u 0 M (vals M) (sizes M) := by
  intro i j
  simp [vals, sizes, rel]

theorem close_mul (h : Rounding rnd u) {m : ℕ} {M : Mat 4 4 (Rd rnd)} {A N : Mat 4 4 ℝ} (hc : CloseTo u m M A N) (b : Mat 4 4 (Rd rnd)) :
    CloseTo u (m + 4) (Mat.mul M b) (A * vals b) (N * sizes b) := by
  intro i j
  obtain ⟨t, ht, e⟩ := mul_factors h (fun k => M i k) (fun k => b k j)
  rw [mul_entry, e, Matrix.mul_apply, Matrix.mul_apply]
  apply sum_err
  intro k
  exact term_err h (hc i k).1 (hc i k).2 (ht k)

theorem close_foldl (h : Rounding rnd u) (ms : List (Mat 4 4 (Rd rnd))) {m : ℕ} {M : Mat 4 4 (Rd rnd)} {A N : Mat 4 4 ℝ} (hc : CloseTo u m M A N) :
    CloseTo u (m + 4 * ms.length) (ms.foldl Mat.mul M) (A * (ms.map vals).prod) (N * (ms.map sizes).prod) := by
  induction ms generalizing m M A N with
  | nil => simpa using hc
  | cons b ms ih =>
    have := ih (close_mul h hc b)
    simp only [List.map_cons, List.prod_cons, ← mul_assoc, List.length_cons, List.foldl_cons]
    rwa [show m + 4 * (ms.length + 1) = m + 4 + 4 * ms.length by ring]

theorem close_reduce (h : Rounding rnd u) (ms : List (Mat 4 4 (Rd rnd))) :
    CloseTo u (4 * (ms.length - 1)) (reduceDot ms) (ms.map vals).prod (ms.map sizes).prod := by
  cases ms with
  | nil =>
    intro i j
    simp only [reduceDot, List.map_nil, List.prod_nil, Mat.eye]
    by_cases hij : i = j
    · subst hij; simp [h.one, rel]
    · simp [hij, h.zero, rel]
  | cons m ms =>
    have := close_foldl h ms (close_vals h m)
    simpa [reduceDot] using this

theorem close_tr {m : ℕ} {M : Mat 4 4 (Rd rnd)} {A N : Mat 4 4 ℝ} (hc : CloseTo u m M A N) : CloseTo u m (Mat.tr M) A.transpose N.transpose :=
  fun i j => hc j i

theorem close_matrixFor (h : Rounding rnd u) (st : Composite (Rd rnd)) (r) (rev : Bool) :
    CloseTo u (4 * ((sel st r).length - 1)) (matrixFor st r rev) (matrixFor (exactly st) r rev) (matrixFor (absolutely st) r rev) := by
  have key : ∀ (f : Mat 4 4 (Rd rnd) → Mat 4 4 ℝ) (hf : ∀ m, f (Mat.tr m) = (f m).transpose), matrixFor (st.map fun t => (f t.1, f t.2)) r rev =
      if rev then (((sel st r).map (·.2)).map f).prod else ((((sel st r).map fun t => Mat.tr t.1).map f).prod).transpose := by
    intro f hf
    rw [matrixFor_eq, sel_map]
    cases rev
    · simp only [Bool.false_eq_true, if_false, List.length_map, reduceDot_real, List.map_map]
      split
      · rename_i h0
        rw [List.length_eq_zero_iff.mp h0]
        simp [Mat.eye_real]
      · rw [Mat.tr_eq]
        congr 3
        funext t
        simp only [Function.comp_apply, hf]
        rfl
    · simp only [if_true, reduceDot_real, List.map_map]
      rfl
  unfold exactly absolutely
  rw [key vals (fun _ => rfl), key sizes (fun _ => rfl), matrixFor_eq]
  cases rev
  · simp only [Bool.false_eq_true, if_false]
    split
    · rename_i h0
      rw [List.length_eq_zero_iff.mp h0]
      have := close_tr (close_reduce (rnd := rnd) h [])
      simp only [List.map_nil, List.prod_nil, List.length_nil] at this ⊢
      have e : Mat.tr (reduceDot ([] : List (Mat 4 4 (Rd rnd)))) = Mat.eye 4 := by
        ext i j
        simp [reduceDot, Mat.tr, Mat.eye, eq_comm]
      rw [e] at this
      exact this
    · have := close_tr (close_reduce h ((sel st r).map fun t => Mat.tr t.1))
      simpa using this
  · simp only [if_true]
    have := close_reduce h ((sel st r).map (·.2))
    simpa using this

/-- absolute values of the coordinates -/
def absv (p : V3 (Rd rnd)) : V3 ℝ := ⟨|p.x.val|, |p.y.val|, |p.z.val|⟩

theorem close_comp (h : Rounding rnd u) {m : ℕ} {M : Mat 4 4 (Rd rnd)} {A N : Mat 4 4 ℝ} (hc : CloseTo u m M A N) (i : Fin 4) (p : V3 (Rd rnd)) :
    |(comp M i p).val - (A i 0 * p.x.val + A i 1 * p.y.val + A i 2 * p.z.val + A i 3)| ≤
      rel u (m + 4) * (N i 0 * |p.x.val| + N i 1 * |p.y.val| + N i 2 * |p.z.val| + N i 3) := by
  obtain ⟨t, ht, e⟩ := mul_factors h (fun k => M i k) ![p.x, p.y, p.z, Num.lit 1]
  have e' : (comp M i p).val = ∑ k, (M i k).val * (![p.x, p.y, p.z, Num.lit 1] k).val * t k := e
  have := (sum_err (fun k => term_err h (b := (![p.x, p.y, p.z, Num.lit 1] k : Rd rnd).val) (hc i k).1 (hc i k).2 (ht k))).1
  rw [← e'] at this
  simp only [Fin.sum_univ_four] at this
  simpa [h.one, ← add_assoc] using this

theorem affine_vals {m : Mat 4 4 (Rd rnd)} (hm : RowExact m) : Affine (vals m) := hm
theorem affine_sizes {m : Mat 4 4 (Rd rnd)} (hm : RowExact m) : Affine (sizes m) := by
  obtain ⟨h0, h1, h2, h3⟩ := hm
  simp [Affine, sizes, h0, h1, h2, h3]

/-- forwards or backwards through transforms, one after the other -/
def image (ts : Composite ℝ) (rev : Bool) (p : V3 ℝ) : V3 ℝ :=
  if rev then ts.foldr (fun t q => affMap t.2 q) p else ts.foldl (fun q t => affMap t.1 q) p

theorem prod_map {ms : List (Mat 4 4 ℝ)} (h : ∀ m ∈ ms, Affine m) (p : V3 ℝ) : Affine ms.prod ∧ affMap ms.prod p = ms.foldr affMap p := by
  induction ms with
  | nil => exact ⟨affine_one, affMap_one p⟩
  | cons m ms ih =>
    obtain ⟨i1, i2⟩ := ih (fun x hx => h x (by simp [hx]))
    rw [List.prod_cons]
    exact ⟨affine_mul (h m (by simp)) i1, by rw [affMap_mul i1, i2]; rfl⟩

theorem matrixFor_image {ts : Composite ℝ} (h : ∀ t ∈ ts, Affine t.1 ∧ Affine t.2) (r) (rev : Bool) (p : V3 ℝ) :
    affMap (matrixFor ts r rev) p = image (sel ts r) rev p := by
  have hsel : selected ts r = sel ts r := by cases r <;> rfl
  cases rev
  · rw [matrixFor_fwd, hsel, (prod_map ?_ p).2]
    · simp [image, List.foldr_reverse, List.foldl_map]
    · intro m hm
      obtain ⟨t, ht, rfl⟩ := List.mem_map.mp (List.mem_reverse.mp hm)
      exact (h t (mem_sel ht)).1
  · rw [matrixFor_rev, hsel, (prod_map ?_ p).2]
    · simp [image, List.foldr_map]
    · intro m hm
      obtain ⟨t, ht, rfl⟩ := List.mem_map.mp hm
      exact (h t (mem_sel ht)).2

theorem call_err (h : Rounding rnd u) {st : Composite (Rd rnd)} (hs : ∀ t ∈ st, PairExact t) (ps : List (V3 (Rd rnd))) (r) (rev : Bool)
    (hk : (4 * (sel st r).length + 4 : ℕ) * u < 1) :
    ∃ qs, callT st (rpts ps) r rev = .ok (rpts qs) ∧
      List.Forall₂ (fun p q =>
        let k := 4 * max 1 (sel st r).length
        let e := image (sel (exactly st) r) rev (Rd.vec p)
        let s := image (sel (absolutely st) r) rev (absv p)
        |q.x.val - e.x| ≤ gam u k * s.x ∧ |q.y.val - e.y| ≤ gam u k * s.y ∧ |q.z.val - e.z| ≤ gam u k * s.z) ps qs := by
  refine ⟨_, applyMatrix_rd h (exact_matrixFor h hs r rev) ps, ?_⟩
  rw [List.forall₂_map_right_iff, List.forall₂_same]
  intro p _
  dsimp only
  rw [← matrixFor_image (ts := exactly st) (fun t ht => by
      obtain ⟨t', ht', rfl⟩ := List.mem_map.mp ht
      exact ⟨affine_vals (hs t' ht').1, affine_vals (hs t' ht').2⟩),
    ← matrixFor_image (ts := absolutely st) (fun t ht => by
      obtain ⟨t', ht', rfl⟩ := List.mem_map.mp ht
      exact ⟨affine_sizes (hs t' ht').1, affine_sizes (hs t' ht').2⟩)]
  have hc := close_matrixFor h st r rev
  generalize matrixFor st r rev = M at hc ⊢
  generalize matrixFor (exactly st) r rev = A at hc ⊢
  generalize matrixFor (absolutely st) r rev = N at hc ⊢
  generalize (sel st r).length = k at hc hk ⊢
  have hk' : 4 * (k - 1) + 4 = 4 * max 1 k := by omega
  have hle : ((4 * max 1 k : ℕ) : ℝ) * u < 1 := by
    refine lt_of_le_of_lt (mul_le_mul_of_nonneg_right ?_ h.nonneg) hk
    exact_mod_cast (by omega : 4 * max 1 k ≤ 4 * k + 4)
  have hN : ∀ i j, 0 ≤ N i j := fun i j => (abs_nonneg _).trans (hc i j).2
  have hrow : ∀ i, |(comp M i p).val - (A i 0 * p.x.val + A i 1 * p.y.val + A i 2 * p.z.val + A i 3)| ≤
      gam u (4 * max 1 k) * (N i 0 * |p.x.val| + N i 1 * |p.y.val| + N i 2 * |p.z.val| + N i 3) := by
    intro i
    have := close_comp h hc i p
    rw [hk'] at this
    refine this.trans (mul_le_mul_of_nonneg_right (rel_le_gam h hle) ?_)
    have := hN i 0; have := hN i 1; have := hN i 2; have := hN i 3
    positivity
  exact ⟨hrow 0, hrow 1, hrow 2⟩

end FC

/-- **C97.** Every entry of the matrix of a range of `k` transforms differs from the exact product of the stored matrices by at most
`4 (k - 1)` roundings, measured against the product of the matrices of absolute values. -/
theorem C97_matrix (h : Rounding rnd u) (st : Composite (Rd rnd)) (r) (rev : Bool)
    (hk : (4 * ((sel st r).length - 1) : ℕ) * u < 1) (i j : Fin 4) :
    |(matrixFor st r rev i j).val - matrixFor (exactly st) r rev i j| ≤
      gam u (4 * ((sel st r).length - 1)) * matrixFor (absolutely st) r rev i j := by
  obtain ⟨h1, h2⟩ := close_matrixFor h st r rev i j
  exact h1.trans (mul_le_mul_of_nonneg_right (rel_le_gam h hk) ((abs_nonneg _).trans h2))

/-- **C97.** After any history of calls a composite transform does not raise on rows of three numbers (the test for a last coordinate of
exactly one never fails), and each coordinate of the image differs from the exact image of the point under the `k` selected transforms,
one after the other, by at most `4 k` roundings, measured against the image of the absolute values. -/
theorem C97_point (h : Rounding rnd u) (inv) (hinv : ∀ a b, RowExact a → inv a = .ok b → RowExact b) (svd : Svd3 (Rd rnd))
    (ops : List (TOp (Rd rnd))) (hops : ∀ op ∈ ops, OpExact op) (ps : List (V3 (Rd rnd))) (r) (rev : Bool)
    (hk : (4 * (sel (runT inv svd [] ops) r).length + 4 : ℕ) * u < 1) :
    ∃ qs, callT (runT inv svd [] ops) (rpts ps) r rev = .ok (rpts qs) ∧
      List.Forall₂ (fun p q =>
        let st := runT inv svd [] ops
        let k := 4 * max 1 (sel st r).length
        let e := image (sel (exactly st) r) rev (Rd.vec p)
        let s := image (sel (absolutely st) r) rev (absv p)
        |q.x.val - e.x| ≤ gam u k * s.x ∧ |q.y.val - e.y| ≤ gam u k * s.y ∧ |q.z.val - e.z| ≤ gam u k * s.z) ps qs := by
  exact call_err h (run_exact h hinv svd ops hops [] (by simp)) ps r rev hk

/-- **C97.** Scaling by a positive factor and back changes each coordinate by a relative error of at most three roundings. -/
theorem C97_scale_roundtrip (h : Rounding rnd u) (hu : 3 * u < 1) (inv) (s : Rd rnd) (hs : 0 < s.val) (ps : List (V3 (Rd rnd))) :
    ∃ qs rs, callT (scaleT inv [] s).1 (rpts ps) none false = .ok (rpts qs) ∧ callT (scaleT inv [] s).1 (rpts qs) none true = .ok (rpts rs) ∧
      List.Forall₂ (fun p r => |r.x.val - p.x.val| ≤ gam u 3 * |p.x.val| ∧ |r.y.val - p.y.val| ≤ gam u 3 * |p.y.val| ∧
        |r.z.val - p.z.val| ≤ gam u 3 * |p.z.val|) ps rs := by
  have hst : (scaleT inv [] s).1 = [(pad44 (Mat.diag fun _ => s), pad44 (Mat.diag fun _ => Num.lit 1 / s))] := by
    unfold scaleT
    rw [if_neg]
    · rfl
    · simpa [Rd.le_iff, lit0 h] using hs
  rw [hst]
  have hp : ∀ t ∈ [(pad44 (Mat.diag fun _ => s), pad44 (Mat.diag fun _ => Num.lit 1 / s))], PairExact t := by
    intro t ht
    rw [List.mem_singleton] at ht
    subst ht
    exact ⟨exact_pad44 h _, exact_pad44 h _⟩
  refine ⟨_, _, applyMatrix_rd h (exact_matrixFor h hp none false) ps, applyMatrix_rd h (exact_matrixFor h hp none true) _, ?_⟩
  rw [List.map_map, List.forall₂_map_right_iff, List.forall₂_same]
  intro p _
  have one : ∀ x : ℝ, |rnd (rnd (1 / s.val) * rnd (s.val * x)) - x| ≤ gam u 3 * |x| := by
    intro x
    obtain ⟨t1, n1, e1⟩ := h.factor (1 / s.val)
    obtain ⟨t2, n2, e2⟩ := h.factor (s.val * x)
    obtain ⟨t3, n3, e3⟩ := h.factor (1 / s.val * t1 * (s.val * x * t2))
    rw [e1, e2, e3]
    have hn := ((n1.mul h.lt_one n2).mul h.lt_one n3).gam_bound h.nonneg (by push_cast; linarith) h.lt_one
    have : 1 / s.val * t1 * (s.val * x * t2) * t3 - x = (t1 * t2 * t3 - 1) * x := by field_simp
    rw [this, abs_mul]
    exact mul_le_mul_of_nonneg_right hn (abs_nonneg _)
  have cx : ∀ (k : Rd rnd) (q : V3 (Rd rnd)), (comp (pad44 (Mat.diag fun _ => k)) 0 q).val = rnd (k.val * q.x.val) ∧
      (comp (pad44 (Mat.diag fun _ => k)) 1 q).val = rnd (k.val * q.y.val) ∧
      (comp (pad44 (Mat.diag fun _ => k)) 2 q).val = rnd (k.val * q.z.val) := by
    intro k q
    simp [comp, pad44, Mat.diag, h.zero, h.one, h.idem]
  have ef : matrixFor [(pad44 (Mat.diag fun _ => s), pad44 (Mat.diag fun _ => Num.lit 1 / s))] none false = pad44 (Mat.diag fun _ => s) := by
    ext i j; rfl
  have er : matrixFor [(pad44 (Mat.diag fun _ => s), pad44 (Mat.diag fun _ => Num.lit 1 / s))] none true =
      pad44 (Mat.diag fun _ => Num.lit 1 / s) := rfl
  simp only [Function.comp_apply, ef, er, cx, Rd.val_div, lit1 h]
  exact ⟨one _, one _, one _⟩

/-- **C97.** Translating representable points by a representable vector and back: each coordinate is off by at most one rounding of itself
and one of the translated coordinate, and it is restored exactly when the translated one is representable. -/
theorem C97_translate_roundtrip (h : Rounding rnd u) (inv) (v : V3 (Rd rnd)) (hv : rnd v.x.val = v.x.val ∧ rnd v.y.val = v.y.val ∧ rnd v.z.val = v.z.val)
    (hv' : rnd (-v.x.val) = -v.x.val ∧ rnd (-v.y.val) = -v.y.val ∧ rnd (-v.z.val) = -v.z.val)
    (ps : List (V3 (Rd rnd))) (hps : ∀ p ∈ ps, rnd p.x.val = p.x.val ∧ rnd p.y.val = p.y.val ∧ rnd p.z.val = p.z.val) :
    ∃ qs rs, callT (translateT inv [] v).1 (rpts ps) none false = .ok (rpts qs) ∧ callT (translateT inv [] v).1 (rpts qs) none true = .ok (rpts rs) ∧
      List.Forall₂ (fun p r => ∀ x ∈ [(p.x.val, v.x.val, r.x.val), (p.y.val, v.y.val, r.y.val), (p.z.val, v.z.val, r.z.val)],
        |x.2.2 - x.1| ≤ u * |x.1| + u * (1 + u) * |x.1 + x.2.1| ∧ (rnd (x.1 + x.2.1) = x.1 + x.2.1 → x.2.2 = x.1) ∧
        x.2.2 = rnd (rnd (x.1 + x.2.1) - x.2.1)) ps rs := by
  have hst : (translateT inv [] v).1 = [(translation44 v, translation44 (-v))] := rfl
  rw [hst]
  have hp : ∀ t ∈ [(translation44 v, translation44 (-v))], PairExact t := by
    intro t ht
    rw [List.mem_singleton] at ht
    subst ht
    exact ⟨exact_translation44 h _, exact_translation44 h _⟩
  refine ⟨_, _, applyMatrix_rd h (exact_matrixFor h hp none false) ps, applyMatrix_rd h (exact_matrixFor h hp none true) _, ?_⟩
  rw [List.map_map, List.forall₂_map_right_iff, List.forall₂_same]
  intro p hpm
  have ef : matrixFor [(translation44 v, translation44 (-v))] none false = translation44 v := by
    ext i j; rfl
  have er : matrixFor [(translation44 v, translation44 (-v))] none true = translation44 (-v) := rfl
  have one : ∀ x w y : ℝ, rnd x = x → y = rnd (rnd (x + w) - w) →
      |y - x| ≤ u * |x| + u * (1 + u) * |x + w| ∧ (rnd (x + w) = x + w → y = x) ∧ y = rnd (rnd (x + w) - w) := by
    intro x w y hx hy
    refine ⟨?_, ?_, hy⟩
    · have e1 := h.err (x + w)
      have e2 := h.err (rnd (x + w) - w)
      rw [← hy] at e2
      have e3 : |rnd (x + w) - w| ≤ |x| + u * |x + w| := by
        calc |rnd (x + w) - w| = |(rnd (x + w) - (x + w)) + x| := by ring_nf
          _ ≤ _ := abs_add_le _ _
          _ ≤ |x| + u * |x + w| := by linarith
      calc |y - x| = |(y - (rnd (x + w) - w)) + (rnd (x + w) - (x + w))| := by ring_nf
        _ ≤ _ := abs_add_le _ _
        _ ≤ u * (|x| + u * |x + w|) + u * |x + w| := add_le_add (e2.trans (mul_le_mul_of_nonneg_left e3 h.nonneg)) e1
        _ = _ := by ring
    · intro hw
      rw [hy, hw, add_sub_cancel_right, hx]
  have cx : ∀ (k q : V3 (Rd rnd)), (comp (translation44 k) 0 q).val = rnd (rnd q.x.val + rnd k.x.val) ∧
      (comp (translation44 k) 1 q).val = rnd (rnd q.y.val + rnd k.y.val) ∧
      (comp (translation44 k) 2 q).val = rnd (rnd q.z.val + rnd k.z.val) := by
    intro k q
    simp [comp, translation44, h.zero, h.one, h.idem]
  obtain ⟨px, py, pz⟩ := hps p hpm
  have nx : (-v).x.val = -v.x.val ∧ (-v).y.val = -v.y.val ∧ (-v).z.val = -v.z.val := ⟨rfl, rfl, rfl⟩
  simp only [Function.comp_apply, ef, er, cx, nx, hv, hv', px, py, pz, h.idem]
  intro x hx
  simp only [List.mem_cons, List.not_mem_nil, or_false] at hx
  rcases hx with rfl | rfl | rfl
  · exact one _ _ _ px (by rw [← sub_eq_add_neg])
  · exact one _ _ _ py (by rw [← sub_eq_add_neg])
  · exact one _ _ _ pz (by rw [← sub_eq_add_neg])

/-- **C97.** In double precision a point can be lost on the way: translated by 2^60 and back, 1 becomes 0. -/
theorem C97_lost (inv) :
    let v : V3 (Rd rnd53) := ⟨⟨2 ^ 60⟩, ⟨0⟩, ⟨0⟩⟩
    ∃ qs, callT (translateT inv [] v).1 (rpts [⟨⟨1⟩, ⟨0⟩, ⟨0⟩⟩]) none false = .ok (rpts qs) ∧
      callT (translateT inv [] v).1 (rpts qs) none true = .ok (rpts [⟨⟨0⟩, ⟨0⟩, ⟨0⟩⟩]) := by
  intro v
  have h := rounding_rnd53
  have h60 : rnd53 (2 ^ 60) = 2 ^ 60 := by
    have := rnd53_grid 1 60 (by norm_num)
    simpa using this
  have hs : rnd53 (1 + 2 ^ 60) = 2 ^ 60 := by
    have := rnd53_eval (1 + 2 ^ 60) (2 ^ 52) 8 (by norm_num) (by norm_num) (by norm_num)
    rw [this]; norm_num
  obtain ⟨qs, rs, hq, hr, hf⟩ := C97_translate_roundtrip h inv v ⟨h60, h.zero, h.zero⟩
    ⟨by show rnd53 (-(2 ^ 60)) = _; rw [rnd53_neg, h60], by show rnd53 (-0) = -0; rw [neg_zero, h.zero], by show rnd53 (-0) = -0; rw [neg_zero, h.zero]⟩
    [⟨⟨1⟩, ⟨0⟩, ⟨0⟩⟩] (by simp [h.zero, h.one])
  refine ⟨qs, hq, ?_⟩
  rw [hr]
  rcases hf with _ | ⟨h1, h2⟩
  cases h2
  rename_i q
  obtain ⟨⟨qx⟩, ⟨qy⟩, ⟨qz⟩⟩ := q
  simp only [List.mem_cons, List.not_mem_nil, or_false, forall_eq_or_imp, forall_eq, v] at h1
  obtain ⟨⟨-, -, hx⟩, ⟨-, -, hy⟩, ⟨-, -, hz⟩⟩ := h1
  rw [hs, sub_self, h.zero] at hx
  simp only [add_zero, h.zero, sub_zero] at hy hz
  rw [hx, hy, hz]

/-- the hypotheses of `C97_point` and `C97_scale_roundtrip` can be met -/
example : Rounding rnd53 (1 / 2 ^ 53) ∧ (∀ a b : Mat 4 4 (Rd rnd53), RowExact a → (fun _ => raise .LinAlgError) a = Except.ok b → RowExact b) ∧
    (∀ op ∈ [TOp.scale (⟨2⟩ : Rd rnd53), .translate ⟨⟨1⟩, ⟨2⟩, ⟨3⟩⟩, .append4 (translation44 ⟨⟨1⟩, ⟨2⟩, ⟨3⟩⟩) none], OpExact op) := by
  refine ⟨rounding_rnd53, fun a b _ h => (by simp [raise] at h), ?_⟩
  intro op hop
  simp only [List.mem_cons, List.not_mem_nil, or_false] at hop
  rcases hop with rfl | rfl | rfl
  · trivial
  · trivial
  · exact ⟨exact_translation44 rounding_rnd53 _, by simp⟩

example (svd : Svd3 (Rd rnd53)) : (4 * (sel (runT (fun _ => raise .LinAlgError) svd []
    [.translate ⟨⟨1⟩, ⟨2⟩, ⟨3⟩⟩, .translate ⟨⟨4⟩, ⟨5⟩, ⟨6⟩⟩]) none).length + 4 : ℕ) * ((1 : ℝ) / 2 ^ 53) < 1 := by
  have : (sel (runT (fun _ => raise .LinAlgError) svd []
    [.translate ⟨⟨1⟩, ⟨2⟩, ⟨3⟩⟩, .translate ⟨⟨4⟩, ⟨5⟩, ⟨6⟩⟩]) none).length = 2 := rfl
  rw [this]; norm_num

end Blmath.Props
