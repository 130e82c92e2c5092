import Verif.Model.GramSchmidt
import Verif.Spec.GramSchmidt
import Verif.Base.Mat
import Verif.Base.Fl
import Mathlib.LinearAlgebra.Matrix.DotProduct
import Mathlib.Tactic

/-!
C60: Gram-Schmidt.
-/

namespace Blmath.Props
open Blmath.Linalg Blmath.Spec
open scoped Matrix
variable {n : ℕ}

theorem dotRow_real (u v : Fin n → ℝ) : dotRow u v = u ⬝ᵥ v := by
  simp [dotRow, dotProduct, sumFin_eq_sum]

theorem proj_real (u v : Fin n → ℝ) : proj u v = ((u ⬝ᵥ v) / (u ⬝ᵥ u)) • u := by
  funext i; simp [proj, dotRow_real]

theorem pySumRows_real (rows : List (Fin n → ℝ)) : pySumRows rows = rows.sum := by
  have key : ∀ (rows : List (Fin n → ℝ)) (s : Fin n → ℝ),
      rows.foldl (fun s r i => s i + r i) s = s + rows.sum := by
    intro rows
    induction rows with
    | nil => intro s; simp
    | cons r rs ih => intro s; simp only [List.foldl_cons, List.sum_cons, ih]; funext i; simp [add_assoc]
  have h0 : (fun _ => Num.lit 0 : Fin n → ℝ) = 0 := by funext i; simp
  rw [pySumRows, h0, key, zero_add]

theorem orthogonalizeFrom_cons (o : List (Fin n → ℝ)) (w : Fin n → ℝ) (rest : List (Fin n → ℝ)) :
    orthogonalizeFrom o (w :: rest) = orthogonalizeFrom (o ++ [w - (o.map fun u => proj u w).sum]) rest := by
  simp only [orthogonalizeFrom, pySumRows_real]
  rfl

/-- subtracting the projections leaves a vector orthogonal to all of them -/
theorem proj_sum (o : List (Fin n → ℝ)) (ho : o.Pairwise fun a b => a ⬝ᵥ b = 0) (hn : ∀ w ∈ o, w ≠ 0)
    (w : Fin n → ℝ) : ∀ u ∈ o, (o.map fun u => proj u w).sum ⬝ᵥ u = w ⬝ᵥ u := by
  have orth0 : ∀ (o : List (Fin n → ℝ)) (a : Fin n → ℝ), (∀ b ∈ o, a ⬝ᵥ b = 0) →
      (o.map fun u => proj u w).sum ⬝ᵥ a = 0 := by
    intro o a
    induction o with
    | nil => simp
    | cons b bs ih =>
      intro h
      rw [List.map_cons, List.sum_cons, add_dotProduct, ih (fun c hc => h c (List.mem_cons_of_mem _ hc)),
        proj_real, smul_dotProduct, dotProduct_comm b a, h b List.mem_cons_self]
      simp
  induction o with
  | nil => simp
  | cons a o ih =>
    intro u hu
    rw [List.pairwise_cons] at ho
    rw [List.map_cons, List.sum_cons, add_dotProduct]
    rcases List.mem_cons.1 hu with rfl | hu
    · have h0 : u ⬝ᵥ u ≠ 0 := by
        rw [Ne, dotProduct_self_eq_zero]; exact hn u List.mem_cons_self
      rw [orth0 o u ho.1, proj_real, smul_dotProduct, smul_eq_mul, div_mul_cancel₀ _ h0, dotProduct_comm,
        add_zero]
    · rw [ih ho.2 (fun w hw => hn w (List.mem_cons_of_mem _ hw)) u hu, proj_real, smul_dotProduct, ho.1 u hu]
      simp

theorem proj_sum_mem (o : List (Fin n → ℝ)) (w : Fin n → ℝ) :
    (o.map fun u => proj u w).sum ∈ Submodule.span ℝ {w | w ∈ o} := by
  refine list_sum_mem ?_
  intro x hx
  obtain ⟨u, hu, rfl⟩ := List.mem_map.1 hx
  rw [proj_real]
  exact Submodule.smul_mem _ _ (Submodule.subset_span hu)

theorem span_concat (l : List (Fin n → ℝ)) (w : Fin n → ℝ) :
    Submodule.span ℝ {x | x ∈ l ++ [w]} = Submodule.span ℝ {x | x ∈ l} ⊔ Submodule.span ℝ {w} := by
  rw [← Submodule.span_union]
  congr 1
  ext x; simp [or_comm]

theorem spanFirst_all (l : List (Fin n → ℝ)) {k : ℕ} (h : l.length ≤ k) :
    spanFirst l k = Submodule.span ℝ {x | x ∈ l} := by
  rw [spanFirst, List.take_of_length_le h]

theorem spanFirst_append (l m : List (Fin n → ℝ)) {k : ℕ} (h : k ≤ l.length) :
    spanFirst (l ++ m) k = spanFirst l k := by
  rw [spanFirst, List.take_append_of_le_length h, spanFirst]

/-- one more row -/
theorem gs_step (v o : List (Fin n → ℝ)) (w : Fin n → ℝ) (h : IsGramSchmidt v o)
    (hw : w ∉ Submodule.span ℝ {x | x ∈ v}) :
    IsGramSchmidt (v ++ [w]) (o ++ [w - (o.map fun u => proj u w).sum]) := by
  obtain ⟨s, hs⟩ : ∃ s, s = (o.map fun u => proj u w).sum := ⟨_, rfl⟩
  have hsp : Submodule.span ℝ {x | x ∈ o} = Submodule.span ℝ {x | x ∈ v} := by
    have := h.span v.length
    rwa [spanFirst_all v le_rfl, spanFirst_all o h.length.le] at this
  have hmem : s ∈ Submodule.span ℝ {x | x ∈ v} := by rw [← hsp, hs]; exact proj_sum_mem o w
  rw [← hs]
  refine ⟨by simp [h.length], ?_, ?_, ?_, ?_⟩
  · intro x hx
    rcases List.mem_append.1 hx with hx | hx
    · exact h.nonzero x hx
    · rw [List.mem_singleton.1 hx, sub_ne_zero]
      rintro rfl
      exact hw hmem
  · rw [List.pairwise_append]
    refine ⟨h.orthogonal, by simp, ?_⟩
    intro a ha b hb
    rw [List.mem_singleton.1 hb, dotProduct_comm, sub_dotProduct, hs,
      proj_sum o h.orthogonal h.nonzero w a ha, sub_self]
  · intro k
    by_cases hk : k ≤ v.length
    · rw [spanFirst_append _ _ hk, spanFirst_append _ _ (h.length ▸ hk), h.span]
    · rw [spanFirst_all _ (by simp [h.length]; omega), spanFirst_all _ (by simp; omega), span_concat,
        span_concat, hsp]
      apply le_antisymm
      · refine sup_le le_sup_left ?_
        rw [Submodule.span_singleton_le_iff_mem]
        exact Submodule.sub_mem _ (Submodule.mem_sup_right (Submodule.mem_span_singleton_self w))
          (Submodule.mem_sup_left hmem)
      · refine sup_le le_sup_left ?_
        rw [Submodule.span_singleton_le_iff_mem]
        have : w = (w - s) + s := by abel
        rw [this]
        exact Submodule.add_mem _ (Submodule.mem_sup_right (by
          convert Submodule.mem_span_singleton_self (w - s) using 2; abel_nf)) (Submodule.mem_sup_left hmem)
  · intro k hk hk'
    by_cases hkv : k < v.length
    · have e : k < o.length := h.length ▸ hkv
      rw [List.getElem_append_left hkv, List.getElem_append_left e, spanFirst_append _ _ hkv.le]
      exact h.step k e hkv
    · have hke : k = v.length := by simp at hk'; omega
      subst hke
      have e1 : (v ++ [w])[v.length] = w := by simp
      have e2 : (o ++ [w - s])[v.length] = w - s := by
        simp [← h.length]
      rw [e1, e2, spanFirst_append _ _ le_rfl, spanFirst_all v le_rfl, sub_sub_cancel]
      exact hmem

/-- no row is a combination of the earlier ones -/
def Fresh (v : List (Fin n → ℝ)) : Prop := ∀ k (h : k < v.length), v[k] ∉ spanFirst v k

theorem fresh_of_independent (v : List (Fin n → ℝ)) (h : Independent v) : Fresh v := by
  intro k hk hm
  have hnot : (⟨k, hk⟩ : Fin v.length) ∉ {i : Fin v.length | (i : ℕ) < k} := by simp
  refine h.notMem_span_image hnot ?_
  refine Submodule.span_mono ?_ hm
  intro x hx
  obtain ⟨i, hi, rfl⟩ := List.mem_take_iff_getElem.1 hx
  exact ⟨⟨i, by omega⟩, by simp; omega, rfl⟩

theorem independent_of_fresh (v : List (Fin n → ℝ)) (h : Fresh v) : Independent v := by
  by_contra hd
  obtain ⟨g, hg, i0, hi0⟩ := Fintype.not_linearIndependent_iff.1 hd
  have hne : (Finset.univ.filter fun i => g i ≠ 0).Nonempty := ⟨i0, by simpa using hi0⟩
  obtain ⟨i, hi, hmax⟩ := Finset.exists_max_image _ (fun i : Fin v.length => i) hne
  simp only [Finset.mem_filter, Finset.mem_univ, true_and] at hi hmax
  apply h i i.2
  have hsum : v[i] = ∑ j ∈ Finset.univ.erase i, (-(g j / g i)) • v[j] := by
    rw [← Finset.add_sum_erase _ _ (Finset.mem_univ i)] at hg
    have : g i • v[i] = - ∑ j ∈ Finset.univ.erase i, g j • v[j] := eq_neg_of_add_eq_zero_left hg
    calc v[i] = (g i)⁻¹ • (g i • v[i]) := by rw [smul_smul, inv_mul_cancel₀ hi, one_smul]
      _ = _ := by
        rw [this, smul_neg, Finset.smul_sum, ← Finset.sum_neg_distrib]
        refine Finset.sum_congr rfl fun j _ => ?_
        rw [smul_smul, neg_smul]; congr 2; field_simp
  have hsum' : v[(i : ℕ)] = ∑ j ∈ Finset.univ.erase i, (-(g j / g i)) • v[j] := hsum
  rw [hsum']
  refine Submodule.sum_mem _ fun j hj => ?_
  by_cases hgj : g j = 0
  · simp [hgj]
  · refine Submodule.smul_mem _ _ (Submodule.subset_span ?_)
    have hlt : j < i := lt_of_le_of_ne (hmax j hgj) (Finset.mem_erase.1 hj).1
    exact List.mem_take_iff_getElem.2 ⟨j, by simp; exact hlt, rfl⟩

theorem gs_go (rest : List (Fin n → ℝ)) : ∀ (v o : List (Fin n → ℝ)), IsGramSchmidt v o → Fresh (v ++ rest) →
    IsGramSchmidt (v ++ rest) (orthogonalizeFrom o rest) := by
  induction rest with
  | nil => intro v o h _; simpa [orthogonalizeFrom] using h
  | cons w rest ih =>
    intro v o h hf
    rw [orthogonalizeFrom_cons]
    have hw : w ∉ Submodule.span ℝ {x | x ∈ v} := by
      have := hf v.length (by simp)
      rw [spanFirst_append _ _ le_rfl, spanFirst_all _ le_rfl] at this
      simpa using this
    have := ih (v ++ [w]) _ (gs_step v o w h hw) (by simpa using hf)
    simpa using this

theorem gs_nil : IsGramSchmidt ([] : List (Fin n → ℝ)) [] :=
  ⟨rfl, by simp, by simp, by simp, by simp⟩

/-- **C60** For linearly independent rows `orthogonalize` is the Gram-Schmidt process. -/
theorem C60_orthogonalize (v : List (Fin n → ℝ)) (h : Independent v) : IsGramSchmidt v (orthogonalize v) := by
  have := gs_go v [] [] gs_nil (fresh_of_independent v h)
  rwa [List.nil_append] at this


/-- a vector of the span which is orthogonal to the spanning vectors is zero -/
theorem span_orth_zero (S : Set (Fin n → ℝ)) (d : Fin n → ℝ) (hd : d ∈ Submodule.span ℝ S)
    (ho : ∀ u ∈ S, d ⬝ᵥ u = 0) : d = 0 := by
  have key : ∀ x ∈ Submodule.span ℝ S, d ⬝ᵥ x = 0 := by
    intro x hx
    induction hx using Submodule.span_induction with
    | mem x h => exact ho x h
    | zero => simp
    | add x y _ _ hx hy => rw [dotProduct_add, hx, hy, add_zero]
    | smul a x _ hx => rw [dotProduct_smul, hx, smul_zero]
  exact dotProduct_self_eq_zero.1 (key d hd)

/-- **C60** These conditions leave no choice. -/
theorem C60_unique (v o o' : List (Fin n → ℝ)) (h : IsGramSchmidt v o) (h' : IsGramSchmidt v o') : o = o' := by
  have orth : ∀ (o : List (Fin n → ℝ)), IsGramSchmidt v o → ∀ k (hk : k < o.length), ∀ u ∈ spanFirst v k,
      o[k] ⬝ᵥ u = 0 := by
    intro o h k hk u hu
    rw [← h.span, spanFirst] at hu
    induction hu using Submodule.span_induction with
    | mem x hx =>
      obtain ⟨i, hi, rfl⟩ := List.mem_take_iff_getElem.1 hx
      rw [dotProduct_comm]
      exact List.pairwise_iff_getElem.1 h.orthogonal i k (by omega) hk (by omega)
    | zero => simp
    | add x y _ _ hx hy => rw [dotProduct_add, hx, hy, add_zero]
    | smul a x _ hx => rw [dotProduct_smul, hx, smul_zero]
  refine List.ext_getElem (h.length.trans h'.length.symm) fun k hk hk' => ?_
  have hv : k < v.length := h.length ▸ hk
  rw [← sub_eq_zero]
  have hm : o[k] - o'[k] ∈ spanFirst v k := by
    have := Submodule.sub_mem _ (h'.step k hk' hv) (h.step k hk hv)
    simpa using this
  refine span_orth_zero _ _ hm fun u hu => ?_
  have hu' : u ∈ spanFirst v k := Submodule.subset_span hu
  rw [sub_dotProduct, orth o h k hk u hu', orth o' h' k hk' u hu', sub_self]

/-! ### unit rows -/

/-- the row is divided by its length where `S` says so -/
noncomputable def unitWhere {α : Type} [Num α] (S : ℕ → Prop) (o : List (Fin n → α)) : List (Fin n → α) :=
  open Classical in o.mapIdx fun j w => if S j then unitRow w else w

theorem unitWhere_congr {α : Type} [Num α] (S T : ℕ → Prop) (o : List (Fin n → α))
    (h : ∀ j < o.length, (S j ↔ T j)) : unitWhere S o = unitWhere T o := by
  refine List.ext_getElem (by simp [unitWhere]) fun k hk hk' => ?_
  have := h k (by simpa [unitWhere] using hk)
  simp only [unitWhere, List.getElem_mapIdx]
  by_cases hS : S k
  · rw [if_pos hS, if_pos (this.1 hS)]
  · rw [if_neg hS, if_neg fun e => hS (this.2 e)]

theorem foldl_unit {α : Type} [Num α] (o : List (Fin n → α)) (hid : ∀ w ∈ o, unitRow (unitRow w) = unitRow w) :
    ∀ (is : List ℤ) (S : ℕ → Prop), (∀ i ∈ is, -(o.length : ℤ) ≤ i ∧ i < o.length) →
    is.foldlM unitAt (unitWhere S o) =
      .ok (unitWhere (fun j => S j ∨ ∃ i ∈ is, i = (j : ℤ) ∨ i = (j : ℤ) - o.length) o) := by
  classical
  intro is
  induction is with
  | nil => intro S _; simp
  | cons i is ih =>
    intro S h
    have hi := h i List.mem_cons_self
    have hlen : (unitWhere S o).length = o.length := by simp [unitWhere]
    obtain ⟨j, hj, hrow, hij⟩ : ∃ j : ℕ, j < o.length ∧ rowIndex o.length i = .ok j ∧
        ∀ j' : ℕ, j' < o.length → ((i = (j' : ℤ) ∨ i = (j' : ℤ) - o.length) ↔ j' = j) := by
      by_cases h0 : i < 0
      · refine ⟨(i + o.length).toNat, by omega, ?_, by omega⟩
        have h1 : ¬ i + (o.length : ℤ) < 0 := by omega
        have h2 : (i + (o.length : ℤ)).toNat < o.length := by omega
        simp only [rowIndex, h0, h1, h2, if_true, if_false]
      · refine ⟨i.toNat, by omega, ?_, by omega⟩
        have h2 : i.toNat < o.length := by omega
        simp only [rowIndex, h0, h2, if_true, if_false]
    have hstep : unitAt (unitWhere S o) i = .ok (unitWhere (fun k => S k ∨ k = j) o) := by
      simp only [unitAt, hlen, hrow, ok_bind, pure_eq_ok]
      congr 1
      refine List.ext_getElem (by simp [unitWhere]) fun k hk hk' => ?_
      have hko : k < o.length := by simpa [unitWhere] using hk'
      simp only [unitWhere, List.getElem_modify, List.getElem_mapIdx]
      by_cases hkj : j = k
      · subst hkj
        by_cases hS : S j
        · simp [hS, hid _ (List.getElem_mem hj)]
        · simp [hS]
      · have hkj' : k ≠ j := fun e => hkj e.symm
        simp [hkj, hkj']
    rw [List.foldlM_cons, hstep, ok_bind, ih _ fun i' hi' => h i' (List.mem_cons_of_mem _ hi')]
    congr 1
    refine unitWhere_congr _ _ _ fun k hko => ?_
    rw [← hij k hko]; simp only [List.mem_cons, exists_eq_or_imp, or_assoc]

theorem unitWhere_false {α : Type} [Num α] (o : List (Fin n → α)) : unitWhere (fun _ => False) o = o := by
  refine List.ext_getElem (by simp [unitWhere]) fun k hk hk' => ?_
  simp [unitWhere]

theorem foldl_unit' {α : Type} [Num α] (o : List (Fin n → α)) (hid : ∀ w ∈ o, unitRow (unitRow w) = unitRow w)
    (is : List ℤ) (h : ∀ i ∈ is, -(o.length : ℤ) ≤ i ∧ i < o.length) :
    is.foldlM unitAt o = .ok (unitWhere (fun j => ∃ i ∈ is, i = (j : ℤ) ∨ i = (j : ℤ) - o.length) o) := by
  have := foldl_unit o hid is (fun _ => False) h
  rw [unitWhere_false] at this
  simpa using this

theorem unitRow_real (w : Fin n → ℝ) : unitRow w = (1 / vnorm w) • w := by
  funext i; simp [unitRow, dotRow_real, vnorm]; ring

theorem vnorm_pos (w : Fin n → ℝ) (h : w ≠ 0) : 0 < vnorm w := by
  refine Real.sqrt_pos.2 ?_
  have h1 : 0 ≤ w ⬝ᵥ w := by
    rw [dotProduct]; exact Finset.sum_nonneg fun i _ => mul_self_nonneg _
  exact lt_of_le_of_ne h1 fun e => h (dotProduct_self_eq_zero.1 e.symm)

theorem vnorm_unit (w : Fin n → ℝ) (h : w ≠ 0) : vnorm ((1 / vnorm w) • w) = 1 := by
  have hp := vnorm_pos w h
  have hs : vnorm w * vnorm w = w ⬝ᵥ w := Real.mul_self_sqrt (by
    rw [dotProduct]; exact Finset.sum_nonneg fun i _ => mul_self_nonneg _)
  rw [vnorm, smul_dotProduct, dotProduct_smul, ← hs]
  rw [show (1 / vnorm w) • (1 / vnorm w) • (vnorm w * vnorm w) = 1 by
    simp only [smul_eq_mul]; field_simp]
  exact Real.sqrt_one

theorem unitRow_idem (w : Fin n → ℝ) (h : w ≠ 0) : unitRow (unitRow w) = unitRow w := by
  rw [unitRow_real (unitRow w), unitRow_real w, vnorm_unit w h]; simp

/-- **C60** For independent rows and valid indices, `orthonormalize` divides exactly the requested rows of the
Gram-Schmidt process by their lengths: these become unit rows, the others are left alone. -/
theorem C60_orthonormalize (v : List (Fin n → ℝ)) (h : Independent v) (is : List ℤ)
    (his : ∀ i ∈ is, -(v.length : ℤ) ≤ i ∧ i < v.length) :
    ∃ o res, IsGramSchmidt v o ∧ orthonormalize v (some is) = .ok res ∧ res.length = v.length ∧
      ∀ j (hj : j < res.length) (hj' : j < o.length),
        ((∃ i ∈ is, i = (j : ℤ) ∨ i = (j : ℤ) - v.length) → res[j] = (1 / vnorm o[j]) • o[j] ∧ vnorm res[j] = 1) ∧
        ((¬ ∃ i ∈ is, i = (j : ℤ) ∨ i = (j : ℤ) - v.length) → res[j] = o[j]) := by
  classical
  have hg := C60_orthogonalize v h
  have hl := hg.length
  have hf := foldl_unit' _ (fun w hw => unitRow_idem w (hg.nonzero w hw)) is (by rw [hl]; exact his)
  rw [hl] at hf
  refine ⟨orthogonalize v, _, hg, hf, by simp [unitWhere, hl], ?_⟩
  intro j hj hj'
  have hne := hg.nonzero _ (List.getElem_mem hj')
  constructor
  · intro hr
    have : (unitWhere (fun j => ∃ i ∈ is, i = (j : ℤ) ∨ i = (j : ℤ) - v.length) (orthogonalize v))[j]'(by
        simpa [unitWhere] using hj') = (1 / vnorm (orthogonalize v)[j]) • (orthogonalize v)[j] := by
      rw [← unitRow_real]; simp only [unitWhere, List.getElem_mapIdx]; rw [if_pos hr]
    exact ⟨this, by rw [this]; exact vnorm_unit _ hne⟩
  · intro hr
    simp only [unitWhere, List.getElem_mapIdx]; rw [if_neg hr]

theorem orthonormalize_none {α : Type} [Num α] (v : List (Fin n → α)) :
    orthonormalize v none = orthonormalize v (some ((List.range v.length).map fun (i : ℕ) => (i : ℤ))) := rfl

/-- **C60** Without indices all rows become unit rows. -/
theorem C60_default (v : List (Fin n → ℝ)) (h : Independent v) :
    ∃ o res, IsGramSchmidt v o ∧ orthonormalize v none = .ok res ∧ res.length = v.length ∧
      (∀ j (hj : j < res.length) (hj' : j < o.length), res[j] = (1 / vnorm o[j]) • o[j]) ∧
      ∀ i j (hi : i < res.length) (hj : j < res.length), res[i] ⬝ᵥ res[j] = if i = j then 1 else 0 := by
  obtain ⟨o, res, hg, hr, hl, hj⟩ := C60_orthonormalize v h ((List.range v.length).map fun (i : ℕ) => (i : ℤ)) (by
    intro i hi; obtain ⟨j, hj, rfl⟩ := List.mem_map.1 hi; have := List.mem_range.1 hj; omega)
  have hreq : ∀ j, j < v.length → ∃ i ∈ (List.range v.length).map fun (i : ℕ) => (i : ℤ),
      i = (j : ℤ) ∨ i = (j : ℤ) - v.length :=
    fun j hj => ⟨j, List.mem_map.2 ⟨j, List.mem_range.2 hj, rfl⟩, Or.inl rfl⟩
  have hrow : ∀ j (hj : j < res.length) (hj' : j < o.length), res[j] = (1 / vnorm o[j]) • o[j] :=
    fun j h1 h2 => ((hj j h1 h2).1 (hreq j (hl ▸ h1))).1
  refine ⟨o, res, hg, by rw [orthonormalize_none, hr], hl, hrow, ?_⟩
  intro i j hi hj'
  have hio : i < o.length := by rw [hg.length, ← hl]; exact hi
  have hjo : j < o.length := by rw [hg.length, ← hl]; exact hj'
  split
  · rename_i e; subst e
    have := ((hj i hi hio).1 (hreq i (hl ▸ hi))).2
    rw [vnorm, Real.sqrt_eq_one] at this
    exact this
  · rename_i e
    rw [hrow i hi hio, hrow j hj' hjo, smul_dotProduct, dotProduct_smul]
    rcases Nat.lt_or_gt_of_ne e with e | e
    · rw [List.pairwise_iff_getElem.1 hg.orthogonal i j hio hjo e]; simp
    · rw [dotProduct_comm, List.pairwise_iff_getElem.1 hg.orthogonal j i hjo hio e]; simp

/-- **C60** An index outside the array raises, whatever the rows. -/
theorem C60_bad_index {α : Type} [Num α] (v : List (Fin n → α)) (is : List ℤ) (i : ℤ) (hi : i ∈ is)
    (h : i < -(v.length : ℤ) ∨ (v.length : ℤ) ≤ i) : orthonormalize v (some is) = .error .IndexError := by
  have hlen : ∀ (rest o : List (Fin n → α)), (orthogonalizeFrom o rest).length = o.length + rest.length := by
    intro rest
    induction rest with
    | nil => intro o; rfl
    | cons w rest ih => intro o; rw [orthogonalizeFrom, ih]; simp; omega
  have key : ∀ (is : List ℤ) (o : List (Fin n → α)), o.length = v.length → i ∈ is →
      is.foldlM unitAt o = .error .IndexError := by
    intro is
    induction is with
    | nil => intro o _ h; simp at h
    | cons a is ih =>
      intro o ho hm
      rw [List.foldlM_cons]
      by_cases hr : rowIndex o.length a = .error .IndexError
      · simp only [unitAt, hr, error_bind]
      · obtain ⟨j, hj⟩ : ∃ j, rowIndex o.length a = .ok j := by
          revert hr
          simp only [rowIndex]
          split <;> split <;> simp [raise] <;> split <;> simp_all
        have hne : i ≠ a := by
          rintro rfl
          apply hr
          rw [ho]
          simp only [rowIndex]
          by_cases h0 : i < 0
          · have : i + (v.length : ℤ) < 0 := by omega
            simp only [h0, this, if_true]
          · have : ¬ i.toNat < v.length := by omega
            simp only [h0, this, if_false]
        simp only [unitAt, hj, ok_bind, pure_eq_ok]
        exact ih _ (by simpa using ho) (by simpa [hne] using hm)
  exact key is _ (by rw [orthogonalize, hlen]; simp) hi

/-! ### floats: dependent rows -/

/-- rows of finite floats -/
def flRow (w : Fin n → ℝ) : Fin n → Fl := fun i => .fin (w i)
/-- a row of NaNs -/
def nanVec : Fin n → Fl := fun _ => .nan

theorem sumFin_fl {m : ℕ} (f : Fin m → ℝ) : sumFin (fun i => Fl.fin (f i)) = Fl.fin (sumFin f) := by
  induction m with
  | zero => rfl
  | succ m ih => simp only [sumFin]; rw [ih fun i => f i.succ]; rfl

theorem sumFin_nan {m : ℕ} (hm : 0 < m) (f : Fin m → Fl) (h : ∀ i, f i = .nan) : sumFin f = .nan := by
  obtain ⟨m, rfl⟩ : ∃ k, m = k + 1 := ⟨m - 1, by omega⟩
  simp [sumFin, h]

theorem dotRow_fl (u v : Fin n → ℝ) : dotRow (flRow u) (flRow v) = .fin (u ⬝ᵥ v) := by
  rw [← dotRow_real]
  simp only [dotRow, flRow, Fl.mul_fin]
  exact sumFin_fl _

theorem proj_fl (u v : Fin n → ℝ) (hu : u ≠ 0) : proj (flRow u) (flRow v) = flRow (proj u v) := by
  have h0 : u ⬝ᵥ u ≠ 0 := fun e => hu (dotProduct_self_eq_zero.1 e)
  funext i
  simp only [proj, dotRow_fl, dotRow_real, Fl.div_fin _ _ h0, flRow, Fl.mul_fin]

theorem proj_zero_fl (v : Fin n → ℝ) : proj (flRow 0) (flRow v) = nanVec := by
  funext i
  simp [proj, dotRow_fl, Fl.div_zero_zero, nanVec]

theorem pySumRows_fl (rows : List (Fin n → ℝ)) : pySumRows (rows.map flRow) = flRow rows.sum := by
  have key : ∀ (rows : List (Fin n → ℝ)) (s : Fin n → ℝ),
      (rows.map flRow).foldl (fun s r i => s i + r i) (flRow s) = flRow (s + rows.sum) := by
    intro rows
    induction rows with
    | nil => intro s; simp
    | cons r rs ih =>
      intro s
      have e : (fun i => flRow s i + flRow r i) = flRow (s + r) := by funext i; simp [flRow]
      simp only [List.map_cons, List.foldl_cons, List.sum_cons, e, ih]; rw [add_assoc]
  have h0 : (fun _ => Num.lit 0 : Fin n → Fl) = flRow 0 := by funext i; simp [flRow, Num.lit]
  rw [pySumRows, h0, key, zero_add]

theorem pySumRows_nan (rows : List (Fin n → Fl)) (h : nanVec ∈ rows) : pySumRows rows = nanVec := by
  have k1 : ∀ rows : List (Fin n → Fl), rows.foldl (fun s r i => s i + r i) nanVec = nanVec := by
    intro rows
    induction rows with
    | nil => rfl
    | cons r rs ih =>
      have : (fun i => nanVec i + r i) = nanVec := by funext i; simp [nanVec]
      rw [List.foldl_cons, this, ih]
  have k2 : ∀ (rows : List (Fin n → Fl)) (s : Fin n → Fl), nanVec ∈ rows →
      rows.foldl (fun s r i => s i + r i) s = nanVec := by
    intro rows
    induction rows with
    | nil => simp
    | cons r rs ih =>
      intro s hm
      rw [List.foldl_cons]
      rcases List.mem_cons.1 hm with rfl | hm
      · have : (fun i => s i + nanVec i) = nanVec := by funext i; simp [nanVec]
        rw [this, k1]
      · exact ih _ hm
  exact k2 rows _ h

theorem go_append {α : Type} [Num α] (a : List (Fin n → α)) : ∀ (o b : List (Fin n → α)),
    orthogonalizeFrom o (a ++ b) = orthogonalizeFrom (orthogonalizeFrom o a) b := by
  induction a with
  | nil => intro o b; rfl
  | cons w a ih => intro o b; simp only [List.cons_append, orthogonalizeFrom]; rw [ih]

theorem go_fl (rest : List (Fin n → ℝ)) : ∀ (v o : List (Fin n → ℝ)), IsGramSchmidt v o → Fresh (v ++ rest) →
    orthogonalizeFrom (o.map flRow) (rest.map flRow) = (orthogonalizeFrom o rest).map flRow := by
  induction rest with
  | nil => intro v o h _; rfl
  | cons w rest ih =>
    intro v o h hf
    have hw : w ∉ Submodule.span ℝ {x | x ∈ v} := by
      have := hf v.length (by simp)
      rw [spanFirst_append _ _ le_rfl, spanFirst_all _ le_rfl] at this
      simpa using this
    have e : (o.map flRow).map (fun u => proj u (flRow w)) = (o.map fun u => proj u w).map flRow := by
      rw [List.map_map, List.map_map]
      exact List.map_congr_left fun u hu => proj_fl u w (h.nonzero u hu)
    have := ih (v ++ [w]) _ (gs_step v o w h hw) (by simpa using hf)
    rw [orthogonalizeFrom_cons, ← this, List.map_cons, orthogonalizeFrom, e, pySumRows_fl, List.map_append]
    congr 3

/-- **C60** For independent rows floats behave like real numbers: no NaN appears. -/
theorem C60_independent_floats (v : List (Fin n → ℝ)) (h : Independent v) :
    orthogonalize (v.map flRow) = (orthogonalize v).map flRow :=
  go_fl v [] [] gs_nil (fresh_of_independent v h)

theorem go_nan (rest : List (Fin n → ℝ)) : ∀ (o : List (Fin n → Fl)), flRow 0 ∈ o →
    orthogonalizeFrom o (rest.map flRow) = o ++ List.replicate rest.length nanVec := by
  induction rest with
  | nil => intro o _; simp [orthogonalizeFrom]
  | cons w rest ih =>
    intro o ho
    have e : pySumRows (o.map fun u => proj u (flRow w)) = nanVec :=
      pySumRows_nan _ (List.mem_map.2 ⟨_, ho, proj_zero_fl w⟩)
    have e' : (fun i => flRow w i - nanVec i) = (nanVec : Fin n → Fl) := by funext i; simp [nanVec]
    rw [List.map_cons, orthogonalizeFrom, e, e', ih _ (List.mem_append_left _ ho), List.append_assoc]
    rfl

/-- **C60** For dependent rows let `k` be the first which is a combination of the earlier ones.  The rows
before it are those of the Gram-Schmidt process, row `k` is zero, and every later row consists of NaNs. -/
theorem C60_dependent (v : List (Fin n → ℝ)) (h : ¬ Independent v) :
    ∃ k, ∃ hk : k < v.length, Independent (v.take k) ∧ v[k] ∈ spanFirst v k ∧
      ∃ o, IsGramSchmidt (v.take k) o ∧
        orthogonalize (v.map flRow) = o.map flRow ++ flRow 0 :: List.replicate (v.length - (k + 1)) nanVec := by
  have hf : ¬ Fresh v := fun hf => h (independent_of_fresh v hf)
  have hex : ∃ k, ∃ hk : k < v.length, v[k] ∈ spanFirst v k := by
    by_contra hc
    exact hf fun k hk hm => hc ⟨k, hk, hm⟩
  classical
  obtain ⟨hk, hm⟩ := Nat.find_spec hex
  have hmin := fun j => Nat.find_min hex (m := j)
  obtain ⟨k, hke⟩ : ∃ k, k = Nat.find hex := ⟨_, rfl⟩
  simp only [← hke] at hk hm hmin
  have hfr : Fresh (v.take k) := by
    intro j hj hjm
    have hjk : j < k := by simp at hj; omega
    refine hmin j hjk ⟨by omega, ?_⟩
    rw [List.getElem_take, spanFirst, List.take_take, min_eq_left hjk.le] at hjm
    exact hjm
  have hg := C60_orthogonalize _ (independent_of_fresh _ hfr)
  refine ⟨k, hk, independent_of_fresh _ hfr, hm, _, hg, ?_⟩
  have hsplit : v = v.take k ++ v[k] :: v.drop (k + 1) := by simp
  have hz : v[k] - ((orthogonalize (v.take k)).map fun u => proj u v[k]).sum = 0 := by
    have hsp : Submodule.span ℝ {x | x ∈ orthogonalize (v.take k)} = spanFirst v k := by
      have := hg.span (v.take k).length
      rwa [spanFirst_all _ hg.length.le, spanFirst_all _ le_rfl] at this
    refine span_orth_zero {x | x ∈ orthogonalize (v.take k)} _ ?_ ?_
    · rw [hsp] 
      refine Submodule.sub_mem _ hm ?_
      rw [← hsp]; exact proj_sum_mem _ _
    · intro u hu
      rw [sub_dotProduct, proj_sum _ hg.orthogonal hg.nonzero _ u hu, sub_self]
  have e : ((orthogonalize (v.take k)).map flRow).map (fun u => proj u (flRow v[k])) =
      ((orthogonalize (v.take k)).map fun u => proj u v[k]).map flRow := by
    rw [List.map_map, List.map_map]
    exact List.map_congr_left fun u hu => proj_fl u _ (hg.nonzero u hu)
  have e2 : (fun i => flRow v[k] i - flRow ((orthogonalize (v.take k)).map fun u => proj u v[k]).sum i) =
      flRow 0 := by
    rw [← hz]; funext i; simp [flRow]
  have e3 : orthogonalizeFrom [] ((v.take k).map flRow) = (orthogonalize (v.take k)).map flRow :=
    C60_independent_floats _ (independent_of_fresh _ hfr)
  conv_lhs => rw [hsplit]
  rw [orthogonalize, List.map_append, go_append, e3, List.map_cons, orthogonalizeFrom, e, pySumRows_fl, e2,
    go_nan _ _ (by simp), List.length_drop, List.append_assoc]
  rfl

/-- **C60** `orthonormalize` turns the zero row into NaNs as well. -/
theorem C60_dependent_unit (v : List (Fin n → ℝ)) (h : ¬ Independent v) :
    ∃ k, ∃ _ : k < v.length, Independent (v.take k) ∧ v[k] ∈ spanFirst v k ∧
      ∃ o, IsGramSchmidt (v.take k) o ∧ orthonormalize (v.map flRow) none =
        .ok (o.map (fun w => flRow ((1 / vnorm w) • w)) ++ List.replicate (v.length - k) nanVec) := by
  obtain ⟨k, hk, h1, h2, o, hg, ho⟩ := C60_dependent v h
  refine ⟨k, hk, h1, h2, o, hg, ?_⟩
  have hfin : ∀ w : Fin n → ℝ, w ≠ 0 → unitRow (flRow w) = flRow ((1 / vnorm w) • w) := by
    intro w hw
    have hp := vnorm_pos w hw
    have hnn : 0 ≤ w ⬝ᵥ w := by rw [dotProduct]; exact Finset.sum_nonneg fun i _ => mul_self_nonneg _
    funext i
    simp only [unitRow, dotRow_fl, Fl.sqrt_fin _ hnn, flRow]
    rw [Fl.div_fin _ _ (by exact hp.ne')]
    simp [vnorm]; ring
  have hzero : unitRow (flRow (0 : Fin n → ℝ)) = nanVec := by
    funext i
    simp only [unitRow, dotRow_fl, zero_dotProduct, Fl.sqrt_fin _ le_rfl, Real.sqrt_zero, flRow, Pi.zero_apply,
      Fl.div_zero_zero, nanVec]
  have hnan : unitRow (nanVec : Fin n → Fl) = nanVec := by
    funext i
    simp [unitRow, nanVec]
  rw [orthonormalize_none]
  simp only [orthonormalize]
  obtain ⟨O, hO⟩ : ∃ O, O = orthogonalize (v.map flRow) := ⟨_, rfl⟩
  have hol : o.length = k := by rw [hg.length]; simp; omega
  have hOl : O.length = v.length := by rw [hO, ho]; simp [hol]; omega
  have hid : ∀ w ∈ O, unitRow (unitRow w) = unitRow w := by
    intro w hw
    rw [hO, ho] at hw
    rcases List.mem_append.1 hw with hw | hw
    · obtain ⟨u, hu, rfl⟩ := List.mem_map.1 hw
      have hne := hg.nonzero u hu
      have hne' : (1 / vnorm u) • u ≠ 0 := smul_ne_zero (by have := vnorm_pos u hne; positivity) hne
      rw [hfin u hne, hfin _ hne', vnorm_unit u hne]; simp
    · rcases List.mem_cons.1 hw with rfl | hw
      · rw [hzero, hnan]
      · rw [(List.mem_replicate.1 hw).2, hnan, hnan]
  rw [← hO, foldl_unit' O hid _ (by
    intro i hi; obtain ⟨j, hj, rfl⟩ := List.mem_map.1 hi; have := List.mem_range.1 hj
    rw [List.length_map] at this; omega)]
  congr 1
  have hmap : unitWhere (fun j => ∃ i ∈ (List.range (v.map flRow).length).map fun (i : ℕ) => (i : ℤ),
      i = (j : ℤ) ∨ i = (j : ℤ) - O.length) O = O.map unitRow := by
    refine List.ext_getElem (by simp [unitWhere]) fun j hj hj' => ?_
    have hjl : j < v.length := by rw [← hOl]; simpa using hj'
    simp only [unitWhere, List.getElem_mapIdx, List.getElem_map]
    rw [if_pos]
    exact ⟨j, List.mem_map.2 ⟨j, List.mem_range.2 (by simpa using hjl), rfl⟩, Or.inl rfl⟩
  rw [hmap, hO, ho, List.map_append, List.map_map, List.map_cons, hzero, List.map_replicate, hnan]
  congr 1
  · exact List.map_congr_left fun u hu => hfin u (hg.nonzero u hu)
  · rw [← List.replicate_succ]; congr 1; omega

/-- independent rows exist in every dimension -/
example : Independent [![3, 1], ![2, 2]] := by
  refine independent_of_fresh _ ?_
  intro k hk
  have hk : k < 2 := hk
  interval_cases k
  · rw [spanFirst]
    intro hm
    simp at hm
  · rw [spanFirst]
    intro hm
    have h0 : (![2, 2] : Fin 2 → ℝ) ∈ Submodule.span ℝ {(![3, 1] : Fin 2 → ℝ)} := by
      refine Submodule.span_mono ?_ hm
      intro x hx; simpa using hx
    obtain ⟨a, ha⟩ := Submodule.mem_span_singleton.1 h0
    have h1 := congrFun ha 0
    have h2 := congrFun ha 1
    norm_num at h1 h2
    linarith

/-- the example of the test suite -/
example : orthogonalize [(![3, 1] : Fin 2 → ℝ), ![2, 2]] = [![3, 1], ![-2/5, 6/5]] := by
  rw [orthogonalize, orthogonalizeFrom_cons, orthogonalizeFrom_cons, orthogonalizeFrom]
  simp only [List.map_nil, List.sum_nil, sub_zero, List.nil_append, List.map_cons, List.sum_cons, add_zero, proj_real,
    List.cons_append]
  congr 2
  funext i
  fin_cases i <;> norm_num [dotProduct, Fin.sum_univ_two]

/-- dependent rows: the second is twice the first -/
example : ¬ Independent [![3, 1], ![6, 2], ![0, 1]] := by
  intro h
  refine fresh_of_independent _ h 1 (by simp) ?_
  rw [spanFirst]
  have e : (![6, 2] : Fin 2 → ℝ) = (2 : ℝ) • ![3, 1] := by
    funext i; fin_cases i <;> norm_num
  show (![6, 2] : Fin 2 → ℝ) ∈ _
  rw [e]
  exact Submodule.smul_mem _ _ (Submodule.subset_span (by simp))

end Blmath.Props
