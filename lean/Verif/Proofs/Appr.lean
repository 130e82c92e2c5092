import Verif.Proofs.Near

/-!
Sums computed in rounded arithmetic: `Appr u k x m y` says that `y` is a sum in which every term carries an error factor of at most
`k` roundings, `x` is the sum of the terms themselves and `m` bounds the sum of their sizes.
-/

namespace Blmath.Spec

/-- `y = ∑ cᵢ tᵢ`, `x = ∑ cᵢ`, `∑ |cᵢ| ≤ m`, every `tᵢ` an error factor of at most `k` roundings -/
def Appr (u : ℝ) (k : ℕ) (x m y : ℝ) : Prop :=
  ∃ L : List (ℝ × ℝ), (∀ p ∈ L, Near u k p.2) ∧ x = (L.map fun p => p.1).sum ∧ (L.map fun p => |p.1|).sum ≤ m ∧
    y = (L.map fun p => p.1 * p.2).sum

namespace Appr
variable {rnd : ℝ → ℝ} {u x m y x' m' y' t : ℝ} {k l : ℕ}

theorem zero : Appr u k 0 0 0 := ⟨[], by simp, by simp, by simp, by simp⟩

theorem single (x : ℝ) (h : Near u k t) : Appr u k x |x| (x * t) := ⟨[(x, t)], by simpa using h, by simp, by simp, by simp⟩

theorem exact (h : Rounding rnd u) (x : ℝ) : Appr u k x |x| x := by
  simpa using single x (Near.one.mono h.nonneg h.lt_one (Nat.zero_le k))

theorem add (a : Appr u k x m y) (b : Appr u k x' m' y') : Appr u k (x + x') (m + m') (y + y') := by
  obtain ⟨L, h1, h2, h3, h4⟩ := a
  obtain ⟨M, g1, g2, g3, g4⟩ := b
  refine ⟨L ++ M, ?_, ?_, ?_, ?_⟩
  · intro p hp
    rcases List.mem_append.1 hp with hp | hp
    · exact h1 p hp
    · exact g1 p hp
  · simp [h2, g2]
  · simp only [List.map_append, List.sum_append]; linarith
  · simp [h4, g4]

theorem scale (c : ℝ) (a : Appr u k x m y) : Appr u k (c * x) (|c| * m) (c * y) := by
  obtain ⟨L, h1, h2, h3, h4⟩ := a
  refine ⟨L.map fun p => (c * p.1, p.2), ?_, ?_, ?_, ?_⟩
  · intro p hp
    obtain ⟨q, hq, rfl⟩ := List.mem_map.1 hp
    exact h1 q hq
  · rw [h2, ← List.sum_map_mul_left, List.map_map]; rfl
  · rw [List.map_map]
    refine le_trans (le_of_eq ?_) (mul_le_mul_of_nonneg_left h3 (abs_nonneg c))
    rw [← List.sum_map_mul_left]
    congr 1
    exact List.map_congr_left fun p _ => by simp [abs_mul]
  · rw [h4, ← List.sum_map_mul_left, List.map_map]
    congr 1
    exact List.map_congr_left fun p _ => by simp [mul_assoc]

theorem neg (a : Appr u k x m y) : Appr u k (-x) m (-y) := by simpa using a.scale (-1)

theorem sub (a : Appr u k x m y) (b : Appr u k x' m' y') : Appr u k (x - x') (m + m') (y - y') := by
  simpa [sub_eq_add_neg] using a.add b.neg

theorem factor (hu : u < 1) (a : Appr u k x m y) (ht : Near u l t) : Appr u (k + l) x m (y * t) := by
  obtain ⟨L, h1, h2, h3, h4⟩ := a
  refine ⟨L.map fun p => (p.1, p.2 * t), ?_, ?_, ?_, ?_⟩
  · intro p hp
    obtain ⟨q, hq, rfl⟩ := List.mem_map.1 hp
    exact (h1 q hq).mul hu ht
  · rw [h2, List.map_map]; rfl
  · rw [List.map_map]; exact h3
  · rw [h4, ← List.sum_map_mul_right, List.map_map]
    congr 1
    exact List.map_congr_left fun p _ => by simp [mul_assoc]

/-- one rounding -/
theorem round (h : Rounding rnd u) (a : Appr u k x m y) : Appr u (k + 1) x m (rnd y) := by
  obtain ⟨d, hd, e⟩ := h.factor y
  rw [e]
  exact a.factor h.lt_one hd

theorem mono (h0 : 0 ≤ u) (hu : u < 1) (hk : k ≤ l) (a : Appr u k x m y) : Appr u l x m y := by
  obtain ⟨L, h1, h2⟩ := a
  exact ⟨L, fun p hp => (h1 p hp).mono h0 hu hk, h2⟩

theorem size (hm : m ≤ m') (a : Appr u k x m y) : Appr u k x m' y := by
  obtain ⟨L, h1, h2, h3, h4⟩ := a
  exact ⟨L, h1, h2, h3.trans hm, h4⟩

theorem sum {ι : Type*} (s : Finset ι) (X M Y : ι → ℝ) (h : ∀ i ∈ s, Appr u k (X i) (M i) (Y i)) :
    Appr u k (∑ i ∈ s, X i) (∑ i ∈ s, M i) (∑ i ∈ s, Y i) := by
  classical
  induction s using Finset.induction_on with
  | empty => simpa using zero
  | insert i s hi ih =>
    rw [Finset.sum_insert hi, Finset.sum_insert hi, Finset.sum_insert hi]
    exact (h i (Finset.mem_insert_self _ _)).add (ih fun j hj => h j (Finset.mem_insert_of_mem hj))

theorem bound (h0 : 0 ≤ u) (hu : u < 1) (hk : k * u < 1) (a : Appr u k x m y) : |y - x| ≤ gam u k * m := by
  obtain ⟨L, h1, rfl, h3, rfl⟩ := a
  refine le_trans ?_ (mul_le_mul_of_nonneg_left h3 (gam_nonneg h0 hk))
  clear h3
  induction L with
  | nil => simp
  | cons p L ih =>
    have e : ((p :: L).map fun q => q.1 * q.2).sum - ((p :: L).map fun q => q.1).sum =
        p.1 * (p.2 - 1) + ((L.map fun q => q.1 * q.2).sum - (L.map fun q => q.1).sum) := by
      simp only [List.map_cons, List.sum_cons]; ring
    rw [e, List.map_cons, List.sum_cons, mul_add]
    refine (abs_add_le _ _).trans (add_le_add ?_ (ih fun q hq => h1 q (List.mem_cons_of_mem _ hq)))
    rw [abs_mul, mul_comm]
    exact mul_le_mul_of_nonneg_right ((h1 p List.mem_cons_self).gam_bound h0 hk hu) (abs_nonneg _)

end Appr
end Blmath.Spec
