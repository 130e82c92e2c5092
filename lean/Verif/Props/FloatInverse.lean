import Verif.Props.LapackRounded
import Verif.Props.FloatFrames
import Mathlib.LinearAlgebra.Matrix.Gershgorin

/-!
Property C152: composite transforms and coordinate frames with the inverse that LAPACK computes, in rounded arithmetic.
-/

namespace Blmath.Props
open Blmath.Linalg Blmath.Spec Blmath.Geometry Blmath.Proofs
variable {rnd : ℝ → ℝ} {u : ℝ}

namespace IV
variable {n k : ℕ}

theorem scal_zero (h : Rounding rnd u) (a c : Rd rnd) (hc : c.val = 0) : (scal a c).val = 0 := by
  unfold scal
  split
  · rw [Rd.val_div, hc, zero_div]; exact LU.zero h
  · rw [Rd.val_mul, hc, zero_mul]; exact LU.zero h

theorem last_row (h : Rounding rnd u) : ∀ (n : ℕ) (a : Mat (n + 1) (n + 1) (Rd rnd)) (b x : Mat (n + 1) k (Rd rnd)),
    (∀ j, (a (Fin.last n) j).val = if j = Fin.last n then 1 else 0) → (∀ j, rnd (b (Fin.last n) j).val = (b (Fin.last n) j).val) →
    gesv a b = .ok x → ∀ j, (x (Fin.last n) j).val = (b (Fin.last n) j).val := by
  intro n
  induction n with
  | zero =>
    intro a b x ha hb hg j
    have hstep := LA.gesv_step a b
    dsimp only at hstep
    have hp : (idamax fun i => a i 0) = 0 := Fin.fin_one_eq_zero _
    rw [hp, hg] at hstep
    split at hstep
    · cases hstep
    · rw [gesv] at hstep
      have hxx := Except.ok.inj hstep
      rw [hxx]
      have h1 : (a 0 0).val = 1 := by have := ha 0; simpa using this
      show rnd ((b (Equiv.swap 0 0 0) j).val / (a (Equiv.swap 0 0 0) 0).val) = (b 0 j).val
      rw [Equiv.swap_self, Equiv.refl_apply, h1, div_one]
      exact hb j
  | succ n ih =>
    intro a b x ha hb hg j
    have hstep := LA.gesv_step a b
    dsimp only at hstep
    set p := idamax fun i => a i 0 with hp
    set a' : Mat (n + 2) (n + 2) (Rd rnd) := laswp p a with ha'
    set b' : Mat (n + 2) k (Rd rnd) := laswp p b with hb'
    rw [hg] at hstep
    split at hstep
    · cases hstep
    · rename_i h0
      rw [Rd.eq_iff, LA.lit0 h] at h0
      have h00 : a' 0 0 = a p 0 := by simp [ha', laswp]
      have hl0 : (0 : Fin (n + 2)) ≠ Fin.last (n + 1) := Fin.last_pos.ne
      have hpl : p ≠ Fin.last (n + 1) := fun e => h0 (by rw [h00, e, ha, if_neg hl0])
      have hsw : Equiv.swap 0 p (Fin.last (n + 1)) = Fin.last (n + 1) := Equiv.swap_apply_of_ne_of_ne hl0.symm hpl.symm
      have hal : ∀ j, a' (Fin.last (n + 1)) j = a (Fin.last (n + 1)) j := fun j => by rw [ha']; show a (Equiv.swap 0 p _) j = _; rw [hsw]
      have hbl : ∀ j, b' (Fin.last (n + 1)) j = b (Fin.last (n + 1)) j := fun j => by rw [hb']; show b (Equiv.swap 0 p _) j = _; rw [hsw]
      have hm : (multipliers a' (Fin.last n)).val = 0 := by
        refine scal_zero h _ _ ?_
        rw [Fin.succ_last, hal, ha, if_neg hl0]
      cases hs : gesv (reduce (multipliers a') (cols a')) (reduce (multipliers a') b') with
      | error e => rw [hs] at hstep; cases hstep
      | ok x' =>
        rw [hs] at hstep
        have hxx : x = backSubst a' b' x' := Except.ok.inj hstep
        have hxl : x (Fin.last (n + 1)) j = x' (Fin.last n) j := by rw [hxx, ← Fin.succ_last]; rfl
        have hrb : ∀ j, (reduce (multipliers a') b' (Fin.last n) j).val = (b (Fin.last (n + 1)) j).val := fun j => by
          show rnd ((b' (Fin.last n).succ j).val - rnd ((multipliers a' (Fin.last n)).val * (b' 0 j).val)) = _
          rw [hm, zero_mul, LU.zero h, sub_zero, Fin.succ_last, hbl, hb]
        rw [hxl, ih _ _ x' (fun j => ?_) (fun j => by rw [hrb]; exact hb j) hs j, hrb]
        show rnd ((a' (Fin.last n).succ j.succ).val - rnd ((multipliers a' (Fin.last n)).val * (a' 0 j.succ).val)) = _
        rw [hm, zero_mul, LU.zero h, sub_zero, Fin.succ_last, hal, ha, ← Fin.succ_last]
        by_cases hj : j = Fin.last n
        · rw [if_pos (by rw [hj]), if_pos hj]; exact LU.one h
        · rw [if_neg fun e => hj (Fin.succ_injective _ e), if_neg hj]; exact LU.zero h

end IV
open IV FC FF

/-- **C152.** In rounded arithmetic, the inverse that LAPACK computes of a matrix with the last row (0, 0, 0, 1) has this last row, without any
rounding error. -/
theorem C152_last_row (h : Rounding rnd u) (a b : Mat 4 4 (Rd rnd)) (ha : RowExact a) (e : npInv 4 a = .ok b) : RowExact b := by
  obtain ⟨h0, h1, h2, h3⟩ := ha
  have one : ∀ j, ((Mat.eye 4 : Mat 4 4 (Rd rnd)) 3 j).val = if j = 3 then 1 else 0 := by
    intro j
    simp only [Mat.eye, Matrix.of_apply]
    by_cases hj : j = 3
    · subst hj; simp [LU.one h]
    · rw [if_neg (Ne.symm hj), if_neg hj]; exact LA.lit0 h
  have := last_row h 3 a (Mat.eye 4) b (fun j => by fin_cases j <;> assumption) (fun j => by
    show rnd ((Mat.eye 4 : Mat 4 4 (Rd rnd)) 3 j).val = ((Mat.eye 4 : Mat 4 4 (Rd rnd)) 3 j).val
    rw [one]; split
    · exact LU.one h
    · exact LU.zero h) e
  have t : ∀ j, (b 3 j).val = if j = 3 then 1 else 0 := fun j => (this j).trans (one j)
  exact ⟨t 0, t 1, t 2, t 3⟩

/-- **C152.** So the statement of C97 about images of points needs nothing about `np.linalg.inv`. -/
theorem C152_point (h : Rounding rnd u) (svd : Svd3 (Rd rnd)) (ops : List (TOp (Rd rnd))) (hops : ∀ op ∈ ops, OpExact op)
    (ps : List (V3 (Rd rnd))) (r) (rev : Bool) (hk : (4 * (sel (runT (npInv 4) svd [] ops) r).length + 4 : ℕ) * u < 1) :
    ∃ qs, callT (runT (npInv 4) svd [] ops) (rpts ps) r rev = .ok (rpts qs) ∧
      List.Forall₂ (fun p q =>
        let st := runT (npInv 4) svd [] ops
        let k := 4 * max 1 (sel st r).length
        let e := image (sel (exactly st) r) rev (Rd.vec p)
        let s := image (sel (absolutely st) r) rev (absv p)
        |q.x.val - e.x| ≤ gam u k * s.x ∧ |q.y.val - e.y| ≤ gam u k * s.y ∧ |q.z.val - e.z| ≤ gam u k * s.z) ps qs :=
  C97_point h (npInv 4) (fun a b => C152_last_row h a b) svd ops hops ps r rev hk

/-- **C152.** ... and neither does the statement of C143 about moves between coordinate frames. -/
theorem C152_move {β : Type} (h : Rounding rnd u) (svd : Svd3 (Rd rnd)) (ver : PyVer)
    (ops : List (MOp (Rd rnd) β)) (hops : ExactProgram ops) (a b : String) (rest : Option β) (ps : List (V3 (Rd rnd))) :
    let st := (CoordMgr.init : CoordMgr (Rd rnd) β).run (npInv 4) svd ops
    ∀ i j, st.tags.get? a = some i → st.tags.get? b = some j → (4 * (max i j - min i j) + 4 : ℕ) * u < 1 →
    ∃ qs, st.doTransform ver (rcarrier rest ps) a b = .ok (rcarrier rest qs) ∧ List.Forall₂ (fun p q => Within (gam u (4 * (max i j - min i j)))
      (carried (absolutely st.transform) i j (absv p)) (Rd.vec q) (carried (exactly st.transform) i j (Rd.vec p))) ps qs :=
  C143_move h (npInv 4) (fun a b => C152_last_row h a b) svd ver ops hops a b rest ps

namespace IV

/-- the coordinates of a point, and one -/
noncomputable def hom (p : V3 (Rd rnd)) : Fin 4 → ℝ := ![p.x.val, p.y.val, p.z.val, 1]

/-- the computed image of a point -/
noncomputable def img (m : Mat 4 4 (Rd rnd)) (p : V3 (Rd rnd)) : V3 (Rd rnd) := ⟨comp m 0 p, comp m 1 p, comp m 2 p⟩

theorem rel4 (h : Rounding rnd u) (hu : u ≤ 1 / 1000) : rel u (0 + 4) ≤ 4.02 * u := by
  refine (rel_le_gam (k := 4) h (by push_cast; linarith)).trans ?_
  unfold gam
  push_cast
  rw [div_le_iff₀ (by linarith)]
  nlinarith [h.nonneg]

theorem hom_img (h : Rounding rnd u) (hu : u ≤ 1 / 1000) {m : Mat 4 4 (Rd rnd)} (hm : RowExact m) {E P : ℝ} (hE : ∀ i j, |(m i j).val| ≤ E)
    {p : V3 (Rd rnd)} (hP : ∀ i, |hom p i| ≤ P) (i : Fin 4) : |hom (img m p) i - ∑ j, vals m i j * hom p j| ≤ 4.02 * u * (4 * (E * P)) := by
  have hE0 : 0 ≤ E := (abs_nonneg _).trans (hE 0 0)
  have hP0 : 0 ≤ P := (abs_nonneg _).trans (hP 0)
  have key : ∀ i, |(comp m i p).val - ∑ j, vals m i j * hom p j| ≤ 4.02 * u * (4 * (E * P)) := by
    intro i
    have c := close_comp h (close_vals h m) i p
    have e : ∑ j, vals m i j * hom p j = vals m i 0 * p.x.val + vals m i 1 * p.y.val + vals m i 2 * p.z.val + vals m i 3 := by
      rw [Fin.sum_univ_four]; simp [hom]
    rw [e]
    refine c.trans ?_
    have b : ∀ j, sizes m i j * |hom p j| ≤ E * P := fun j => mul_le_mul (hE i j) (hP j) (abs_nonneg _) hE0
    have b0 : sizes m i 0 * |p.x.val| ≤ E * P := b 0
    have b1 : sizes m i 1 * |p.y.val| ≤ E * P := b 1
    have b2 : sizes m i 2 * |p.z.val| ≤ E * P := b 2
    have b3 : sizes m i 3 ≤ E * P := by have := b 3; simpa [hom] using this
    refine mul_le_mul (rel4 h hu) (by linarith) ?_ (by linarith [h.nonneg])
    have := fun j => abs_nonneg (m i j).val
    have s : ∀ j, 0 ≤ sizes m i j := fun j => this j
    have := mul_nonneg (s 0) (abs_nonneg p.x.val)
    have := mul_nonneg (s 1) (abs_nonneg p.y.val)
    have := mul_nonneg (s 2) (abs_nonneg p.z.val)
    have := s 3
    linarith
  have z : (0 : ℝ) ≤ 4.02 * u * (4 * (E * P)) := mul_nonneg (by linarith [h.nonneg]) (mul_nonneg (by norm_num) (mul_nonneg hE0 hP0))
  fin_cases i
  · exact key 0
  · exact key 1
  · exact key 2
  · obtain ⟨h0, h1, h2, h3⟩ := hm
    have e : ∑ j, vals m 3 j * hom p j = 1 := by
      rw [Fin.sum_univ_four]; simp [vals, h0, h1, h2, h3, hom]
    show |hom (img m p) 3 - ∑ j, vals m 3 j * hom p j| ≤ _
    rw [e]
    simpa [hom] using z

theorem sum_le {a b : Fin 4 → ℝ} {A B : ℝ} (ha : ∀ j, |a j| ≤ A) (hb : ∀ j, |b j| ≤ B) : |∑ j, a j * b j| ≤ 4 * (A * B) := by
  refine (Finset.abs_sum_le_sum_abs _ _).trans ?_
  have hA : 0 ≤ A := (abs_nonneg _).trans (ha 0)
  have : ∀ j : Fin 4, |a j * b j| ≤ A * B := fun j => by rw [abs_mul]; exact mul_le_mul (ha j) (hb j) (abs_nonneg _) hA
  have := Finset.sum_le_sum fun j (_ : j ∈ Finset.univ) => this j
  simpa using this

theorem mul_le {a b : Matrix (Fin 4) (Fin 4) ℝ} {A B : ℝ} (ha : ∀ i j, |a i j| ≤ A) (hb : ∀ i j, |b i j| ≤ B) (i j : Fin 4) :
    |(a * b) i j| ≤ 4 * (A * B) := by
  rw [Matrix.mul_apply]; exact sum_le (fun m => ha i m) (fun m => hb m j)

/-- two images, one after the other, with matrices whose product is nearly the identity -/
theorem twice (h : Rounding rnd u) (hu : u ≤ 1 / 1000) {m r : Mat 4 4 (Rd rnd)} (hm : RowExact m) (hr : RowExact r) {E X P δ : ℝ}
    (hE : ∀ i j, |(m i j).val| ≤ E) (hX : ∀ i j, |(r i j).val| ≤ X) {p : V3 (Rd rnd)} (hP : ∀ i, |hom p i| ≤ P)
    (hδ : ∀ i j, |(vals m * vals r - 1) i j| ≤ δ) (i : Fin 4) : |hom (img m (img r p)) i - hom p i| ≤ 4 * (δ * P) + 131 * (u * (E * X * P)) := by
  have hu0 := h.nonneg
  have hE0 : 0 ≤ E := (abs_nonneg _).trans (hE 0 0)
  have hX0 : 0 ≤ X := (abs_nonneg _).trans (hX 0 0)
  have hP0 : 0 ≤ P := (abs_nonneg _).trans (hP 0)
  have q1 := hom_img h hu hr hX hP
  have rv : ∀ j, |∑ l, vals r j l * hom p l| ≤ 4 * (X * P) := fun j => sum_le (fun l => hX j l) hP
  have hXP : 0 ≤ X * P := mul_nonneg hX0 hP0
  have hq : ∀ j, |hom (img r p) j| ≤ 4.1 * (X * P) := fun j => by
    have := abs_sub_abs_le_abs_sub (hom (img r p) j) (∑ l, vals r j l * hom p l)
    have := q1 j
    have := rv j
    have : u * (X * P) ≤ 1 / 1000 * (X * P) := mul_le_mul_of_nonneg_right hu hXP
    have e : 4.02 * u * (4 * (X * P)) = 16.08 * (u * (X * P)) := by ring
    linarith
  have q2 := hom_img h hu hm hE hq i
  have q3 : |∑ j, vals m i j * (hom (img r p) j - ∑ l, vals r j l * hom p l)| ≤ 4 * (E * (4.02 * u * (4 * (X * P)))) :=
    sum_le (fun j => hE i j) q1
  have q4 : |∑ j, (vals m * vals r - 1) i j * hom p j| ≤ 4 * (δ * P) := sum_le (fun j => hδ i j) hP
  have e : hom (img m (img r p)) i - hom p i = (hom (img m (img r p)) i - ∑ j, vals m i j * hom (img r p) j) +
      ∑ j, vals m i j * (hom (img r p) j - ∑ l, vals r j l * hom p l) + ∑ j, (vals m * vals r - 1) i j * hom p j := by
    have e1 : ∑ j, (vals m * vals r - 1) i j * hom p j = ∑ j, vals m i j * (∑ l, vals r j l * hom p l) - hom p i := by
      have a1 : ∑ j, (vals m * vals r - 1) i j * hom p j = ((vals m * vals r - 1).mulVec (hom p)) i := rfl
      rw [a1, Matrix.sub_mulVec, Matrix.one_mulVec, ← Matrix.mulVec_mulVec]
      rfl
    have e2 : ∑ j, vals m i j * (hom (img r p) j - ∑ l, vals r j l * hom p l) =
        ∑ j, vals m i j * hom (img r p) j - ∑ j, vals m i j * (∑ l, vals r j l * hom p l) := by
      rw [← Finset.sum_sub_distrib]
      exact Finset.sum_congr rfl fun j _ => by ring
    rw [e1, e2]; ring
  rw [e]
  have t1 := abs_add_le ((hom (img m (img r p)) i - ∑ j, vals m i j * hom (img r p) j) +
      ∑ j, vals m i j * (hom (img r p) j - ∑ l, vals r j l * hom p l)) (∑ j, (vals m * vals r - 1) i j * hom p j)
  have t2 := abs_add_le (hom (img m (img r p)) i - ∑ j, vals m i j * hom (img r p) j)
      (∑ j, vals m i j * (hom (img r p) j - ∑ l, vals r j l * hom p l))
  have j1 : 4.02 * u * (4 * (E * (4.1 * (X * P)))) = 65.928 * (u * (E * X * P)) := by ring
  have j2 : 4 * (E * (4.02 * u * (4 * (X * P)))) = 64.32 * (u * (E * X * P)) := by ring
  rw [j1] at q2
  rw [j2] at q3
  have : 0 ≤ u * (E * X * P) := mul_nonneg hu0 (mul_nonneg (mul_nonneg hE0 hX0) hP0)
  linarith

/-- a right inverse, nearly, is nearly a left inverse -/
theorem other_side {F R : Matrix (Fin 4) (Fin 4) ℝ} {E X δ : ℝ} (hE : ∀ i j, |F i j| ≤ E) (hX : ∀ i j, |R i j| ≤ X)
    (hδ : ∀ i j, |(F * R - 1) i j| ≤ δ) (hs : δ ≤ 1 / 400) (i j : Fin 4) : |(R * F - 1) i j| ≤ 65 * (δ * (E * X)) := by
  have hE0 : 0 ≤ E := (abs_nonneg _).trans (hE 0 0)
  have hX0 : 0 ≤ X := (abs_nonneg _).trans (hX 0 0)
  have hδ0 : 0 ≤ δ := (abs_nonneg _).trans (hδ 0 0)
  set D := F * R - 1 with hD
  have hFR : F * R = 1 + D := by rw [hD]; abel
  have det : (1 + D).det ≠ 0 := by
    refine det_ne_zero_of_sum_row_lt_diag fun k => ?_
    have d1 : ∑ j ∈ Finset.univ.erase k, ‖(1 + D) k j‖ ≤ ∑ j ∈ Finset.univ.erase k, δ := by
      refine Finset.sum_le_sum fun j hj => ?_
      rw [Matrix.add_apply, Matrix.one_apply_ne (Finset.ne_of_mem_erase hj).symm, zero_add]
      exact hδ k j
    have d2 : ∑ j ∈ (Finset.univ.erase k : Finset (Fin 4)), δ = 3 * δ := by
      rw [Finset.sum_const, Finset.card_erase_of_mem (Finset.mem_univ k)]; simp
    have d3 : 1 - δ ≤ ‖(1 + D) k k‖ := by
      rw [Matrix.add_apply, Matrix.one_apply_eq, Real.norm_eq_abs]
      have := hδ k k
      rw [abs_le] at this
      have := le_abs_self (1 + D k k)
      linarith
    linarith
  set Y := (1 + D)⁻¹ with hY
  have hY1 : (1 + D) * Y = 1 := Matrix.mul_nonsing_inv _ (Ne.isUnit det)
  have hY2 : Y * (1 + D) = 1 := Matrix.nonsing_inv_mul _ (Ne.isUnit det)
  have hYD : Y = 1 - D * Y := by
    have : D * Y = (1 + D) * Y - Y := by rw [add_mul, one_mul]; abel
    rw [this, hY1]; abel
  obtain ⟨⟨i0, j0⟩, -, hmax⟩ := Finset.exists_max_image (Finset.univ : Finset (Fin 4 × Fin 4)) (fun x => |Y x.1 x.2|) ⟨(0, 0), Finset.mem_univ _⟩
  set y := |Y i0 j0| with hy
  have hyy : ∀ i j, |Y i j| ≤ y := fun i j => hmax (i, j) (Finset.mem_univ _)
  have hDY : ∀ i j, |(D * Y) i j| ≤ 4 * (δ * y) := mul_le hδ hyy
  have hy1 : y ≤ 1.0102 := by
    have e : Y i0 j0 = (1 : Matrix (Fin 4) (Fin 4) ℝ) i0 j0 - (D * Y) i0 j0 := congrFun (congrFun hYD i0) j0
    have h1 : |(1 : Matrix (Fin 4) (Fin 4) ℝ) i0 j0| ≤ 1 := by rw [Matrix.one_apply]; split <;> norm_num
    have h2 := hDY i0 j0
    have h3 := abs_sub ((1 : Matrix (Fin 4) (Fin 4) ℝ) i0 j0) ((D * Y) i0 j0)
    rw [← e] at h3
    have h4 : δ * y ≤ 1 / 400 * y := mul_le_mul_of_nonneg_right hs (abs_nonneg _)
    linarith
  have hRY : R * (Y * F) = 1 := by
    refine mul_eq_one_comm.1 ?_
    rw [Matrix.mul_assoc, hFR, hY2]
  have hM : R * F - 1 = R * ((D * Y) * F) := by
    have : D * Y = 1 - Y := by conv_rhs => rw [hYD]
                               abel
    rw [this, sub_mul, one_mul, mul_sub, hRY]
  rw [hM]
  have b1 := mul_le hDY hE
  have b2 := mul_le hX b1 i j
  refine b2.trans ?_
  have e : 4 * (X * (4 * (4 * (δ * y) * E))) = 64 * (δ * (E * X)) * y := by ring
  rw [e]
  have : 0 ≤ δ * (E * X) := mul_nonneg hδ0 (mul_nonneg hE0 hX0)
  nlinarith

end IV
open IV

namespace IV

theorem both {m r : Mat 4 4 (Rd rnd)} (h : Rounding rnd u) (hm : RowExact m) (hr : RowExact r) (ps : List (V3 (Rd rnd))) :
    callT [(m, r)] (rpts ps) none false = .ok (rpts (ps.map (img m))) ∧ callT [(m, r)] (rpts ps) none true = .ok (rpts (ps.map (img r))) := by
  have ef : matrixFor [(m, r)] none false = m := by ext i j; rfl
  have er : matrixFor [(m, r)] none true = r := rfl
  constructor
  · have := applyMatrix_rd h hm ps
    rw [← ef] at this
    exact this
  · exact applyMatrix_rd h hr ps

end IV

/-- **C152.** A 4×4 matrix with the last row (0, 0, 0, 1) is appended to a composite transform without its inverse, which LAPACK computes.  Applying
the transform in reverse and then forward restores points up to 1503 roundings, measured by the sizes of both matrices and of the points; and so does
forward and then reverse, with both sizes squared, unless the matrix is almost singular. -/
theorem C152_roundtrip (h : Rounding rnd u) (hu : u ≤ 1 / 1000) {m r : Mat 4 4 (Rd rnd)} (hm : RowExact m) (e : npInv 4 m = .ok r) {E X P : ℝ}
    (hE : ∀ i j, |(m i j).val| ≤ E) (hX : ∀ i j, |(r i j).val| ≤ X) (hP1 : 1 ≤ P) (ps : List (V3 (Rd rnd)))
    (hP : ∀ p ∈ ps, |p.x.val| ≤ P ∧ |p.y.val| ≤ P ∧ |p.z.val| ≤ P) :
    append4 (npInv 4) [] m none = ([(m, r)], .ok 0) ∧
    (∃ qs rs, callT [(m, r)] (rpts ps) none true = .ok (rpts qs) ∧ callT [(m, r)] (rpts qs) none false = .ok (rpts rs) ∧
      List.Forall₂ (fun p q => |q.x.val - p.x.val| ≤ 1503 * (u * (E * X * P)) ∧ |q.y.val - p.y.val| ≤ 1503 * (u * (E * X * P)) ∧
        |q.z.val - p.z.val| ≤ 1503 * (u * (E * X * P))) ps rs) ∧
    (2 ^ 18 * (u * (E * X)) ≤ 1 →
      ∃ qs rs, callT [(m, r)] (rpts ps) none false = .ok (rpts qs) ∧ callT [(m, r)] (rpts qs) none true = .ok (rpts rs) ∧
      List.Forall₂ (fun p q => |q.x.val - p.x.val| ≤ 90000 * (u * (E * X) ^ 2 * P) ∧ |q.y.val - p.y.val| ≤ 90000 * (u * (E * X) ^ 2 * P) ∧
        |q.z.val - p.z.val| ≤ 90000 * (u * (E * X) ^ 2 * P)) ps rs) := by
  have hu0 := h.nonneg
  have hr := C152_last_row h m r hm e
  have hE1 : 1 ≤ E := by have := hE 3 3; rwa [hm.2.2.2, abs_one] at this
  have hX1 : 1 ≤ X := by have := hX 3 3; rwa [hr.2.2.2, abs_one] at this
  have hEX : 1 ≤ E * X := one_le_mul_of_one_le_of_one_le hE1 hX1
  have hW : 0 ≤ u * (E * X) := mul_nonneg hu0 (by linarith)
  have hδ : ∀ i j, |(vals m * vals r - 1) i j| ≤ 343 * (u * (E * X)) := by
    intro i j
    have k := C151_inv_residual h hu (n := 4) (by push_cast; linarith) m r hE hX e i j
    refine le_trans (le_of_eq ?_) (k.trans ?_)
    · rw [Matrix.sub_apply, Matrix.mul_apply]; rfl
    · have e1 : (2.01 : ℝ) ^ 4 * u * (18 * E * X + 3) = 16.32240801 * (18 * (u * (E * X)) + 3 * u) := by ring
      have : u ≤ u * (E * X) := le_mul_of_one_le_right hu0 hEX
      rw [e1]; linarith
  have hh : ∀ p ∈ ps, ∀ i, |hom p i| ≤ P := by
    intro p hp i
    obtain ⟨h1, h2, h3⟩ := hP p hp
    fin_cases i
    · exact h1
    · exact h2
    · exact h3
    · simpa [hom] using hP1
  have hP0 : 0 ≤ P := by linarith
  refine ⟨by simp [append4, e], ⟨_, _, (both h hm hr ps).2, (both h hm hr _).1, ?_⟩, fun hs => ⟨_, _, (both h hm hr ps).1, (both h hm hr _).2, ?_⟩⟩
  · rw [List.map_map, List.forall₂_map_right_iff, List.forall₂_same]
    intro p hp
    have t : ∀ i, |hom (img m (img r p)) i - hom p i| ≤ 1503 * (u * (E * X * P)) := fun i => by
      have := twice h hu hm hr hE hX (hh p hp) hδ i
      have e1 : 4 * (343 * (u * (E * X)) * P) = 1372 * (u * (E * X * P)) := by ring
      linarith
    exact ⟨t 0, t 1, t 2⟩
  · rw [List.map_map, List.forall₂_map_right_iff, List.forall₂_same]
    intro p hp
    have hδ' := other_side (F := vals m) (R := vals r) hE hX hδ (by linarith)
    have t : ∀ i, |hom (img r (img m p)) i - hom p i| ≤ 90000 * (u * (E * X) ^ 2 * P) := fun i => by
      have := twice h hu hr hm hX hE (hh p hp) hδ' i
      have e1 : 4 * (65 * (343 * (u * (E * X)) * (E * X)) * P) = 89180 * (u * (E * X) ^ 2 * P) := by ring
      have e2 : u * (X * E * P) = u * (E * X) * P := by ring
      have e3 : u * (E * X) * P ≤ u * (E * X) ^ 2 * P := by
        refine mul_le_mul_of_nonneg_right ?_ hP0
        have := le_mul_of_one_le_right hW hEX
        rwa [mul_assoc, ← sq] at this
      have e4 : 0 ≤ u * (E * X) * P := mul_nonneg hW hP0
      rw [e1, e2] at this
      linarith
    exact ⟨t 0, t 1, t 2⟩

namespace IV

/-- a matrix that turns, stretches and moves -/
noncomputable def sample : Mat 4 4 (Rd rnd53) := !![⟨3⟩, ⟨1⟩, ⟨0⟩, ⟨1⟩; ⟨0⟩, ⟨2⟩, ⟨-1⟩, ⟨0⟩; ⟨1⟩, ⟨0⟩, ⟨3⟩, ⟨1⟩; ⟨0⟩, ⟨0⟩, ⟨0⟩, ⟨1⟩]

theorem sample_le (i j : Fin 4) : |(sample i j).val| ≤ 3 := by
  fin_cases i <;> fin_cases j <;> simp [sample] <;> norm_num

theorem sample_row : RowExact sample := by refine ⟨?_, ?_, ?_, ?_⟩ <;> simp [sample]

/-- no column is made smaller by it -/
theorem sample_grows {v : Fin 4 → ℝ} {X : ℝ} (hv : ∀ i, |v i| ≤ X) {i : Fin 4} (hi : |v i| = X) : X ≤ |∑ j, (sample i j).val * v j| := by
  have v0 := hv 0
  have v1 := hv 1
  have v2 := hv 2
  have v3 := hv 3
  have X0 := (abs_nonneg _).trans v0
  rw [Fin.sum_univ_four]
  have key : ∀ {a b c : ℝ} (k : ℝ), |a| = X → |b| ≤ X → |c| ≤ X → 3 ≤ k → X ≤ |k * a + b + c| := by
    intro a b c k ha hb hc hk
    have t1 := abs_add_le (k * a + b + c) (-(b + c))
    have t2 := abs_add_le b c
    rw [abs_neg, show k * a + b + c + -(b + c) = k * a by ring, abs_mul, abs_of_nonneg (by linarith : 0 ≤ k), ha] at t1
    nlinarith
  fin_cases i
  · have := key 3 hi v1 v3 le_rfl
    simpa [sample] using this
  · have t1 := abs_add_le (2 * v 1 - v 2) (v 2)
    rw [sub_add_cancel, abs_mul, abs_of_nonneg (by norm_num : (0 : ℝ) ≤ 2), show |v 1| = X from hi] at t1
    have : X ≤ |2 * v 1 - v 2| := by linarith
    simpa [sample, sub_eq_add_neg] using this
  · have : X ≤ |3 * v 2 + v 0 + v 3| := key 3 hi v0 v3 le_rfl
    have e : 3 * v 2 + v 0 + v 3 = v 0 + 3 * v 2 + v 3 := by ring
    rw [e] at this
    simpa [sample] using this
  · have : X ≤ |v 3| := hi.ge
    simpa [sample] using this

end IV

/-- A matrix that can be inverted, in double precision, with inverse entries of at most 2: both parts of `C152_roundtrip` apply to it. -/
theorem C152_witness : ∃ r, npInv 4 sample = .ok r ∧ RowExact sample ∧ (∀ i j, |(sample i j).val| ≤ 3) ∧ (∀ i j, |(r i j).val| ≤ 2) ∧
    (2 : ℝ) ^ 18 * (1 / 2 ^ 53 * (3 * 2)) ≤ 1 ∧
    ∃ qs rs, callT [(sample, r)] (rpts [⟨⟨1⟩, ⟨-2⟩, ⟨5⟩⟩]) none false = .ok (rpts qs) ∧ callT [(sample, r)] (rpts qs) none true = .ok (rpts rs) ∧
      List.Forall₂ (fun (p q : V3 (Rd rnd53)) => |q.x.val - p.x.val| ≤ 1 / 10 ^ 8 ∧ |q.y.val - p.y.val| ≤ 1 / 10 ^ 8 ∧ |q.z.val - p.z.val| ≤ 1 / 10 ^ 8)
        [⟨⟨1⟩, ⟨-2⟩, ⟨5⟩⟩] rs := by
  have hu : (1 : ℝ) / 2 ^ 53 ≤ 1 / 1000 := by norm_num
  obtain ⟨r, hr⟩ : ∃ r, npInv 4 sample = .ok r := by
    refine C151_succeeds rounding_rnd53 hu sample (Mat.eye 4) sample_le fun s hs hd => ?_
    obtain ⟨v, hv0, hv⟩ := Matrix.exists_mulVec_eq_zero_iff.2 hd
    obtain ⟨i, -, hmax⟩ := Finset.exists_max_image (Finset.univ : Finset (Fin 4)) (fun i => |v i|) ⟨0, Finset.mem_univ _⟩
    have g := sample_grows (v := v) (X := |v i|) (fun j => hmax j (Finset.mem_univ _)) rfl
    have e : ∑ j, (sample i j).val * v j = -∑ j, (s i j - (sample i j).val) * v j := by
      have := congrFun hv i
      have e1 : ∑ j, s i j * v j = 0 := this
      rw [← Finset.sum_neg_distrib, ← sub_eq_zero, ← Finset.sum_sub_distrib, ← e1]
      exact Finset.sum_congr rfl fun j _ => by ring
    have b := sum_le (fun j => hs i j) (fun j => hmax j (Finset.mem_univ j))
    rw [e, abs_neg] at g
    have : 0 < |v i| := by
      refine lt_of_le_of_ne (abs_nonneg _) fun h0 => hv0 (funext fun j => ?_)
      have := hmax j (Finset.mem_univ _)
      rw [← h0] at this
      exact abs_nonpos_iff.1 this
    have := g.trans b
    nlinarith
  have hX : ∀ i j, |(r i j).val| ≤ 2 := by
    obtain ⟨⟨i, j⟩, -, hmax⟩ := Finset.exists_max_image (Finset.univ : Finset (Fin 4 × Fin 4)) (fun x => |(r x.1 x.2).val|) ⟨(0, 0), Finset.mem_univ _⟩
    have hm : ∀ i' j', |(r i' j').val| ≤ |(r i j).val| := fun i' j' => hmax (i', j') (Finset.mem_univ _)
    have g := sample_grows (v := fun i' => (r i' j).val) (fun i' => hm i' j) (i := i) rfl
    have k := C151_inv_residual rounding_rnd53 hu (n := 4) (by norm_num) sample r sample_le hm hr i j
    have h1 : |(1 : Matrix (Fin 4) (Fin 4) ℝ) i j| ≤ 1 := by rw [Matrix.one_apply]; split <;> norm_num
    have t := abs_sub_abs_le_abs_sub (∑ m, (sample i m).val * (r m j).val) ((1 : Matrix (Fin 4) (Fin 4) ℝ) i j)
    have c : (2.01 : ℝ) ^ 4 * (1 / 2 ^ 53) * (18 * 3 * |(r i j).val| + 3) ≤ 1 / 10 * |(r i j).val| + 1 / 10 := by
      have := abs_nonneg (r i j).val
      nlinarith
    intro i' j'
    have := hm i' j'
    linarith
  refine ⟨r, hr, sample_row, sample_le, hX, by norm_num, ?_⟩
  obtain ⟨qs, rs, h1, h2, h3⟩ := (C152_roundtrip rounding_rnd53 hu sample_row hr sample_le hX (P := 5) (by norm_num) [⟨⟨1⟩, ⟨-2⟩, ⟨5⟩⟩] (by
    intro p hp
    rw [List.mem_singleton] at hp
    subst hp
    simp
    norm_num)).2.2 (by norm_num)
  refine ⟨qs, rs, h1, h2, h3.imp fun p q h => ?_⟩
  exact ⟨h.1.trans (by norm_num), h.2.1.trans (by norm_num), h.2.2.trans (by norm_num)⟩

end Blmath.Props
