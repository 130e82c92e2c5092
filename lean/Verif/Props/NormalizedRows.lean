import Verif.Proofs.Normals
import Verif.Base.Fl
import Mathlib.Analysis.Calculus.FDeriv.Mul
import Mathlib.Analysis.SpecialFunctions.Sqrt
import Mathlib.Analysis.Calculus.Deriv.Inv

/-!
C64: normalized rows and their derivative.
-/

namespace Blmath.Props
open Blmath.Linalg Blmath.Spec Blmath.Normals
variable {n : ℕ}

theorem dot_toV (r : Fin 3 → ℝ) : V3.dot (toV r) (toV r) = ∑ k, r k ^ 2 := by
  simp [V3.dot, Fin.sum_univ_three]; ring

theorem sumsq_pos {r : Fin 3 → ℝ} (h : r ≠ 0) : 0 < ∑ k, r k ^ 2 := by
  obtain ⟨k, hk⟩ := Function.ne_iff.1 h
  exact Finset.sum_pos' (fun _ _ => sq_nonneg _) ⟨k, Finset.mem_univ _, by have : r k ≠ 0 := hk; positivity⟩

theorem rowSs_toV {r : Fin 3 → ℝ} (h : r ≠ 0) : rowSs (toV r) = ∑ k, r k ^ 2 := by
  have := sumsq_pos h
  rw [rowSs, dot_toV, if_neg]
  simp only [Num.eq_real, Num.lit_real]
  push_cast
  exact this.ne'

/-- **C64** `NormalizedNx3` divides each row by its length; rows of zeros stay. -/
theorem C64_value (x : Fin n → Fin 3 → ℝ) : normalizedR (flat x) = .ok (flat (unitRows x)) := by
  rw [normalizedR, rows3_flat]
  simp only [ok_bind, pure_eq_ok]
  congr 1
  apply ravel3_map_ofFn
  intro i
  by_cases h : x i = 0
  · have e : unitRows x i = 0 := by funext k; simp [unitRows, h]
    rw [e, h]
    ext <;> simp
  · have e : unitRows x i = fun k => x i k / rowLen (x i) := by funext k; simp [unitRows, h]
    rw [e, rowSs_toV h]
    rfl

/-- **C64** The rows of the result have length one, except those that are zero. -/
theorem C64_unit (x : Fin n → Fin 3 → ℝ) (i : Fin n) :
    (x i ≠ 0 → rowLen (unitRows x i) = 1) ∧ (x i = 0 → unitRows x i = 0) := by
  constructor
  · intro h
    have hp := sumsq_pos h
    have e : unitRows x i = fun k => x i k / rowLen (x i) := by funext k; simp [unitRows, h]
    rw [e]
    unfold rowLen
    simp only [div_pow, ← Finset.sum_div]
    rw [Real.sq_sqrt hp.le, div_self hp.ne', Real.sqrt_one]
  · intro h; funext k; simp [unitRows, h]

/-- **C64** A number of elements that is not a multiple of three raises ValueError. -/
theorem C64_bad_shape (v : List ℝ) (h : v.length % 3 ≠ 0) :
    normalizedR v = raise .ValueError ∧ normalizedDr v = raise .ValueError := by
  rw [normalizedR, normalizedDr, rows3_length_mod _ h]
  exact ⟨rfl, rfl⟩

theorem normalizedDr_eq (v : Fin n → Fin 3 → ℝ) :
    normalizedDr (flat v) = .ok (blockCsc n (ravel33 (List.ofFn fun i => normalizedBlock (toV (v i))))) := by
  have e : (List.ofFn fun i => normalizedBlock (toV (v i))) = (List.ofFn fun i => toV (v i)).map normalizedBlock := by
    rw [List.map_ofFn]; rfl
  rw [normalizedDr, rows3_flat, flat_length, blockIndices_mul]
  simp only [ok_bind]
  rw [← idxList, cscNew_block _ _ (by rw [ravel33_length]; simp), e]
  rfl

/-- **C64** The matrix of the derivative is well formed, and has no entries outside of the blocks of the rows. -/
theorem C64_layout (v : Fin n → Fin 3 → ℝ) : ∃ J, normalizedDr (flat v) = .ok J ∧ CscValid (n * 3) J ∧
    ∀ i j k l, i ≠ j → cscDense (n * 3) J (idx i k) (idx j l) = 0 := by
  refine ⟨_, normalizedDr_eq v, blockCsc_valid _ _ (by rw [ravel33_length]; simp), ?_⟩
  intro i j k l h
  rw [blockCsc_dense, if_neg h]

/-- the coordinate (i, k) -/
noncomputable def coord (i : Fin n) (k : Fin 3) : (Fin n → Fin 3 → ℝ) →L[ℝ] ℝ :=
  (ContinuousLinearMap.proj k).comp (ContinuousLinearMap.proj (R := ℝ) (φ := fun _ : Fin n => Fin 3 → ℝ) i)

@[simp] theorem coord_apply (i : Fin n) (k : Fin 3) (x : Fin n → Fin 3 → ℝ) : coord i k x = x i k := rfl

theorem coord_deriv (i : Fin n) (k : Fin 3) (v : Fin n → Fin 3 → ℝ) :
    HasFDerivAt (fun x : Fin n → Fin 3 → ℝ => x i k) (coord i k) v := (coord i k).hasFDerivAt

/-- derivatives may be computed entry by entry -/
theorem isJacobian_of {n m : ℕ} {F : (Fin n → Fin 3 → ℝ) → (Fin m → Fin 3 → ℝ)}
    {J : Matrix (Fin (m * 3)) (Fin (n * 3)) ℝ} {v : Fin n → Fin 3 → ℝ}
    (h : ∀ i k, ∃ D : (Fin n → Fin 3 → ℝ) →L[ℝ] ℝ, HasFDerivAt (fun x => F x i k) D v ∧
      ∀ x, D x = ∑ j, ∑ l, J (idx i k) (idx j l) * x j l) : IsJacobian F J v := by
  choose D h1 h2 using h
  refine ⟨ContinuousLinearMap.pi fun i => ContinuousLinearMap.pi fun k => D i k, fun x i k => h2 i k x, ?_⟩
  rw [hasFDerivAt_pi]
  intro i
  rw [hasFDerivAt_pi]
  exact fun k => h1 i k

/-- **C64** Away from rows of zeros the matrix is the derivative of the map. -/
theorem C64_jacobian (v : Fin n → Fin 3 → ℝ) (hv : ∀ i, v i ≠ 0) :
    ∃ J, normalizedDr (flat v) = .ok J ∧ IsJacobian unitRows (cscDense (n * 3) J) v := by
  refine ⟨_, normalizedDr_eq v, isJacobian_of ?_⟩
  intro i k
  have hp := sumsq_pos (hv i)
  obtain ⟨q, hq⟩ : ∃ q, q = ∑ k, v i k ^ 2 := ⟨_, rfl⟩
  rw [← hq] at hp
  have hs : 0 < Real.sqrt q := Real.sqrt_pos.2 hp
  have hss : Real.sqrt q * Real.sqrt q = q := Real.mul_self_sqrt hp.le
  have dsum : HasFDerivAt (fun x : Fin n → Fin 3 → ℝ => x i 0 * x i 0 + x i 1 * x i 1 + x i 2 * x i 2) _ v :=
    (((coord_deriv i 0 v).mul (coord_deriv i 0 v)).add ((coord_deriv i 1 v).mul (coord_deriv i 1 v))).add
      ((coord_deriv i 2 v).mul (coord_deriv i 2 v))
  have hval : v i 0 * v i 0 + v i 1 * v i 1 + v i 2 * v i 2 = q := by
    rw [hq, Fin.sum_univ_three]; ring
  have dsq := dsum.sqrt (by rw [hval]; exact hp.ne')
  have dinv := (hasDerivAt_inv (x := Real.sqrt (v i 0 * v i 0 + v i 1 * v i 1 + v i 2 * v i 2))
    (by rw [hval]; exact hs.ne')).comp_hasFDerivAt v dsq
  have ddiv := (coord_deriv i k v).mul dinv
  have hF : (fun x : Fin n → Fin 3 → ℝ => unitRows x i k) =ᶠ[nhds v]
      fun x => x i k * (Real.sqrt (x i 0 * x i 0 + x i 1 * x i 1 + x i 2 * x i 2))⁻¹ := by
    have : ∀ᶠ x : Fin n → Fin 3 → ℝ in nhds v, x i ≠ 0 :=
      (continuous_apply i).continuousAt.eventually_ne (hv i)
    filter_upwards [this] with x hx
    rw [unitRows, if_neg hx, rowLen, Fin.sum_univ_three, div_eq_mul_inv]
    congr 4 <;> ring
  refine ⟨_, ddiv.congr_of_eventuallyEq hF, ?_⟩
  intro x
  rw [Finset.sum_eq_single i (by
      intro j _ hj
      apply Finset.sum_eq_zero
      intro l _
      rw [blockCsc_dense, if_neg (Ne.symm hj), zero_mul]) (by simp)]
  simp only [blockCsc_dense, if_true, Fin.sum_univ_three]
  simp only [normalizedBlock, rowSs_toV (hv i), ← hq]
  simp only [Num.sqrt_real, Num.lit_real, Function.comp_def, Pi.mul_apply, ContinuousLinearMap.add_apply,
    ContinuousLinearMap.smul_apply, coord_apply, smul_eq_mul, hval]
  generalize Real.sqrt q = s at hs hss
  subst hss
  fin_cases k <;>
  · simp
    field_simp
    ring

/-- **C64** At an array with a row of zeros the map has no derivative (the code returns a matrix all the same). -/
theorem C64_zero_row (v : Fin n → Fin 3 → ℝ) (i : Fin n) (hv : v i = 0) : ¬ DifferentiableAt ℝ unitRows v := by
  intro h
  have hc := h.continuousAt
  let path : ℝ → Fin n → Fin 3 → ℝ := fun t => Function.update v i ![t, 0, 0]
  have hpath : Continuous path := by
    refine continuous_const.update i ?_
    rw [continuous_pi_iff]
    intro k
    fin_cases k
    · exact continuous_id
    · exact continuous_const
    · exact continuous_const
  have h0 : path 0 = v := by
    show Function.update v i ![0, 0, 0] = v
    rw [Function.update_eq_self_iff, hv]
    funext k; fin_cases k <;> rfl
  have hcomp : ContinuousAt (fun t => unitRows (path t) i 0) 0 := by
    have h1 : ContinuousAt (unitRows ∘ path) 0 := ContinuousAt.comp (by rw [h0]; exact hc) hpath.continuousAt
    exact ((continuous_apply (0 : Fin 3)).comp (continuous_apply i)).continuousAt.comp h1
  have hval0 : unitRows (path 0) i 0 = 0 := by rw [h0, unitRows, if_pos hv]
  have hvalpos : ∀ t : ℝ, 0 < t → unitRows (path t) i 0 = 1 := by
    intro t ht
    have e : path t i = ![t, 0, 0] := Function.update_self ..
    have hne : path t i ≠ 0 := by
      rw [e]; intro hh
      have := congrFun hh 0
      simp at this
      exact ht.ne' this
    rw [unitRows, if_neg hne, e, rowLen]
    simp [Fin.sum_univ_three, Real.sqrt_sq ht.le, ht.ne']
  have := hcomp.tendsto
  rw [hval0] at this
  have h2 : Filter.Tendsto (fun t => unitRows (path t) i 0) (nhdsWithin 0 (Set.Ioi 0)) (nhds 0) :=
    this.mono_left nhdsWithin_le_nhds
  have h3 : Filter.Tendsto (fun t => unitRows (path t) i 0) (nhdsWithin (0 : ℝ) (Set.Ioi 0)) (nhds 1) := by
    refine tendsto_const_nhds.congr' ?_
    filter_upwards [self_mem_nhdsWithin] with t ht
    exact (hvalpos t ht).symm
  exact zero_ne_one (tendsto_nhds_unique h2 h3)

/-- **C64** In floating point arithmetic with exact finite results there are no NaNs, even with rows of zeros. -/
theorem C64_floats (x : Fin n → Fin 3 → ℝ) :
    normalizedR (flat fun i k => Fl.fin (x i k)) = .ok (flat fun i k => Fl.fin (unitRows x i k)) := by
  rw [normalizedR, rows3_flat]
  simp only [ok_bind, pure_eq_ok]
  congr 1
  apply ravel3_map_ofFn
  intro i
  have hd : V3.dot (toV fun k => Fl.fin (x i k)) (toV fun k => Fl.fin (x i k)) = Fl.fin (∑ k, x i k ^ 2) := by
    simp only [V3.dot, toV_x, toV_y, toV_z, Fl.mul_fin, Fl.add_fin, Fin.sum_univ_three]
    congr 1; ring
  have hl : ∀ q : ℚ, (Num.lit q : Fl) = Fl.fin q := fun _ => rfl
  have heq : ∀ a b : ℝ, (Num.eq (Fl.fin a) (Fl.fin b) = true) ↔ a = b := by
    intro a b; simp [Num.eq, Fl.eq]
  by_cases h : x i = 0
  · have e : (fun k => Fl.fin (unitRows x i k)) = fun _ => Fl.fin 0 := by funext k; simp [unitRows, h]
    have h0 : (∑ k, x i k ^ 2) = 0 := by simp [h]
    have hss : rowSs (toV fun k => Fl.fin (x i k)) = Fl.fin (1 / 10000000000) := by
      rw [rowSs, hd, h0, if_pos (by rw [hl, heq]; norm_num), hl]; norm_num
    have hpos : Real.sqrt (1 / 10000000000) ≠ 0 := (Real.sqrt_pos.2 (by norm_num)).ne'
    rw [e, hss, Fl.sqrt_fin _ (by norm_num)]
    generalize Real.sqrt (1 / 10000000000) = w at hpos
    ext <;> simp [V3.sdiv, h, Fl.div_fin _ _ hpos]
  · have hp := sumsq_pos h
    have e : (fun k => Fl.fin (unitRows x i k)) = fun k => Fl.fin (x i k / rowLen (x i)) := by
      funext k; simp [unitRows, h]
    have hss : rowSs (toV fun k => Fl.fin (x i k)) = Fl.fin (∑ k, x i k ^ 2) := by
      rw [rowSs, hd, if_neg (by rw [hl, heq]; push_cast; exact hp.ne')]
    have hpos : Real.sqrt (∑ k, x i k ^ 2) ≠ 0 := (Real.sqrt_pos.2 hp).ne'
    rw [e, hss, Fl.sqrt_fin _ hp.le]
    ext <;> simp [V3.sdiv, Fl.div_fin _ _ hpos, rowLen]

/-- the hypothesis of C64_jacobian holds for these two rows -/
example : ∀ i : Fin 2, (![![3, 4, 0], ![0, 0, -2]] : Fin 2 → Fin 3 → ℝ) i ≠ 0 := by
  intro i h
  fin_cases i
  · have := congrFun h 0; simp at this
  · have := congrFun h 2; simp at this

example : unitRows (![![3, 4, 0], ![0, 0, 0]] : Fin 2 → Fin 3 → ℝ) = ![![3/5, 4/5, 0], ![0, 0, 0]] := by
  have h25 : Real.sqrt (3 ^ 2 + 4 ^ 2) = 5 := by
    rw [show (3 : ℝ) ^ 2 + 4 ^ 2 = 5 ^ 2 by norm_num]; exact Real.sqrt_sq (by norm_num)
  have hne : (![3, 4, 0] : Fin 3 → ℝ) ≠ 0 := by
    intro h; have := congrFun h 0; simp at this
  funext i k
  fin_cases i
  · rw [unitRows, if_neg (by exact hne)]
    fin_cases k <;> simp [rowLen, Fin.sum_univ_three, h25]
  · fin_cases k <;> simp [unitRows]

end Blmath.Props
