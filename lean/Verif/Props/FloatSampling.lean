import Verif.Props.FloatError
import Verif.Model.Segment
import Verif.Model.Plane
import Verif.Model.Numerics

/-!
Property C86: rescaling, sampling of segments and cuts of segments in rounded arithmetic.
-/

namespace Blmath.Props
open Blmath.Spec Blmath.Geometry Blmath.Numerics
variable {rnd : ℝ → ℝ} {u : ℝ}

/-! ### scale_to_range -/

theorem nan_rd (x : Rd rnd) : npIsNan x = false := by simp [npIsNan]

theorem npMin_rd (x y : Rd rnd) : (npMin x y = x ∨ npMin x y = y) ∧ (npMin x y).val ≤ x.val ∧ (npMin x y).val ≤ y.val := by
  unfold npMin
  simp only [nan_rd, Bool.false_eq_true, if_false, Rd.lt_iff]
  split
  · exact ⟨Or.inr rfl, by linarith, le_rfl⟩
  · exact ⟨Or.inl rfl, le_rfl, by linarith⟩

theorem npMax_rd (x y : Rd rnd) : (npMax x y = x ∨ npMax x y = y) ∧ x.val ≤ (npMax x y).val ∧ y.val ≤ (npMax x y).val := by
  unfold npMax
  simp only [nan_rd, Bool.false_eq_true, if_false, Rd.lt_iff]
  split
  · exact ⟨Or.inr rfl, by linarith, le_rfl⟩
  · exact ⟨Or.inl rfl, le_rfl, by linarith⟩

theorem foldl_min_rd : ∀ (xs : List (Rd rnd)) (x : Rd rnd), xs.foldl npMin x ∈ x :: xs ∧ ∀ y ∈ x :: xs, (xs.foldl npMin x).val ≤ y.val
  | [], x => by simp
  | z :: xs, x => by
    obtain ⟨h1, h2⟩ := foldl_min_rd xs (npMin x z)
    obtain ⟨h3, h4, h5⟩ := npMin_rd x z
    have h6 := h2 _ (List.mem_cons_self ..)
    rw [List.foldl_cons]
    constructor
    · rcases List.mem_cons.mp h1 with h | h
      · rw [h]; rcases h3 with h | h <;> rw [h] <;> simp
      · simp [h]
    · intro y hy
      rcases List.mem_cons.mp hy with h | h
      · rw [h]; linarith
      · rcases List.mem_cons.mp h with h | h
        · rw [h]; linarith
        · exact h2 y (List.mem_cons_of_mem _ h)

theorem foldl_max_rd : ∀ (xs : List (Rd rnd)) (x : Rd rnd), xs.foldl npMax x ∈ x :: xs ∧ ∀ y ∈ x :: xs, y.val ≤ (xs.foldl npMax x).val
  | [], x => by simp
  | z :: xs, x => by
    obtain ⟨h1, h2⟩ := foldl_max_rd xs (npMax x z)
    obtain ⟨h3, h4, h5⟩ := npMax_rd x z
    have h6 := h2 _ (List.mem_cons_self ..)
    rw [List.foldl_cons]
    constructor
    · rcases List.mem_cons.mp h1 with h | h
      · rw [h]; rcases h3 with h | h <;> rw [h] <;> simp
      · simp [h]
    · intro y hy
      rcases List.mem_cons.mp hy with h | h
      · rw [h]; linarith
      · rcases List.mem_cons.mp h with h | h
        · rw [h]; linarith
        · exact h2 y (List.mem_cons_of_mem _ h)

theorem scale_rd (h : Rounding rnd u) (a : List (Rd rnd)) (rMin rMax mn mx : Rd rnd) (hmn : mn ∈ a) (hmx : mx ∈ a)
    (hlo : ∀ x ∈ a, mn.val ≤ x.val) (hhi : ∀ x ∈ a, x.val ≤ mx.val) :
    ∃ ys, scaleToRange a rMin rMax = .ok ys ∧ ys.map Rd.val = a.map fun x =>
      rnd (rnd (rnd (rnd (rMax.val - rMin.val) * rnd (x.val - mn.val)) / rnd (mx.val - mn.val)) + rMin.val) := by
  match a, hmn with
  | x :: xs, hmn =>
    obtain ⟨m1, m2⟩ := foldl_min_rd xs x
    have e1 : (xs.foldl npMin x).val = mn.val := le_antisymm (m2 mn hmn) (hlo _ m1)
    have hm : npMinArr (x :: xs) = .ok (xs.foldl npMin x) := rfl
    obtain ⟨M1, M2⟩ := foldl_max_rd (xs.map (· - xs.foldl npMin x)) (x - xs.foldl npMin x)
    have hM : npMaxArr ((x :: xs).map (· - xs.foldl npMin x)) =
        .ok ((xs.map (· - xs.foldl npMin x)).foldl npMax (x - xs.foldl npMin x)) := rfl
    have e2 : ((xs.map (· - xs.foldl npMin x)).foldl npMax (x - xs.foldl npMin x)).val = rnd (mx.val - mn.val) := by
      apply le_antisymm
      · have : (xs.map (· - xs.foldl npMin x)).foldl npMax (x - xs.foldl npMin x) ∈ (x :: xs).map (· - xs.foldl npMin x) := by
          simpa using M1
        obtain ⟨z, hz, ez⟩ := List.mem_map.mp this
        rw [← ez, Rd.val_sub, e1]
        exact h.mono (by linarith [hhi z hz])
      · have := M2 (mx - xs.foldl npMin x) (by
          have : mx - xs.foldl npMin x ∈ (x :: xs).map (· - xs.foldl npMin x) := List.mem_map.mpr ⟨mx, hmx, rfl⟩
          simpa using this)
        rwa [Rd.val_sub, e1] at this
    refine ⟨_, by simp only [scaleToRange, hm, ok_bind, hM, pure_eq_ok]; rfl, ?_⟩
    rw [List.map_map, List.map_map]
    apply List.map_congr_left
    intro z _
    simp only [Function.comp, Rd.val_add, Rd.val_div, Rd.val_mul, Rd.val_sub, e2, e1]

/-- **C86.** `scale_to_range` in rounded arithmetic: the order is kept, nothing falls below `r_min`, the minimum goes to
`r_min` exactly, and every element is right up to `gam u 6` times the sizes of the two terms. -/
theorem C86_range (h : Rounding rnd u) (hu : 6 * u < 1) (a : List (Rd rnd)) (rMin rMax mn mx : Rd rnd) (hmn : mn ∈ a) (hmx : mx ∈ a)
    (hlo : ∀ x ∈ a, mn.val ≤ x.val) (hhi : ∀ x ∈ a, x.val ≤ mx.val) (hne : mn.val < mx.val) (hr : rMin.val ≤ rMax.val)
    (hf : rnd rMin.val = rMin.val) :
    ∃ ys, scaleToRange a rMin rMax = .ok ys ∧ ys.length = a.length ∧
      (∀ (i j : ℕ) (x x' y y' : Rd rnd), a[i]? = some x → ys[i]? = some y → a[j]? = some x' → ys[j]? = some y' → x.val ≤ x'.val → y.val ≤ y'.val) ∧
      ∀ (i : ℕ) (x y : Rd rnd), a[i]? = some x → ys[i]? = some y → rMin.val ≤ y.val ∧ (x.val = mn.val → y.val = rMin.val) ∧
        |y.val - ((rMax.val - rMin.val) * (x.val - mn.val) / (mx.val - mn.val) + rMin.val)| ≤
          gam u 6 * ((rMax.val - rMin.val) * (x.val - mn.val) / (mx.val - mn.val) + |rMin.val|) := by
  obtain ⟨ys, e, hm⟩ := scale_rd h a rMin rMax mn mx hmn hmx hlo hhi
  have hl : ys.length = a.length := by simpa using congrArg List.length hm
  have hv : ∀ (i : ℕ) (x y : Rd rnd), a[i]? = some x → ys[i]? = some y → y.val =
      rnd (rnd (rnd (rnd (rMax.val - rMin.val) * rnd (x.val - mn.val)) / rnd (mx.val - mn.val)) + rMin.val) := by
    intro i x y hx hy
    have := congrArg (fun l : List ℝ => l[i]?) hm
    simpa [hx, hy] using this
  have hR : 0 ≤ rnd (rMax.val - rMin.val) := (h.nonneg_iff _).mpr (by linarith)
  have hM : 0 < rnd (mx.val - mn.val) := (h.pos_iff _).mpr (by linarith)
  refine ⟨ys, e, hl, ?_, ?_⟩
  · intro i j x x' y y' hx hy hx' hy' hxx
    rw [hv i x y hx hy, hv j x' y' hx' hy']
    apply h.mono
    apply add_le_add_left
    apply h.mono
    apply div_le_div_of_nonneg_right _ hM.le
    apply h.mono
    apply mul_le_mul_of_nonneg_left _ hR
    exact h.mono (by linarith)
  · intro i x y hx hy
    have hxa : x ∈ a := List.mem_of_getElem? hx
    have hxm := hlo x hxa
    rw [hv i x y hx hy]
    have ht : 0 ≤ rnd (x.val - mn.val) := (h.nonneg_iff _).mpr (by linarith)
    refine ⟨?_, ?_, ?_⟩
    · conv_lhs => rw [← hf]
      apply h.mono
      have : 0 ≤ rnd (rnd (rnd (rMax.val - rMin.val) * rnd (x.val - mn.val)) / rnd (mx.val - mn.val)) := by
        rw [h.nonneg_iff]
        apply div_nonneg _ hM.le
        rw [h.nonneg_iff]
        exact mul_nonneg hR ht
      linarith
    · intro hx0
      rw [hx0, sub_self, h.zero, mul_zero, h.zero, zero_div, h.zero, zero_add, hf]
    · obtain ⟨d1, n1, e1⟩ := h.factor (rMax.val - rMin.val)
      obtain ⟨d2, n2, e2⟩ := h.factor (x.val - mn.val)
      obtain ⟨d3, n3, e3⟩ := h.factor (mx.val - mn.val)
      rw [e1, e2, e3]
      obtain ⟨d4, n4, e4⟩ := h.factor ((rMax.val - rMin.val) * d1 * ((x.val - mn.val) * d2))
      rw [e4]
      obtain ⟨d5, n5, e5⟩ := h.factor ((rMax.val - rMin.val) * d1 * ((x.val - mn.val) * d2) * d4 / ((mx.val - mn.val) * d3))
      rw [e5]
      obtain ⟨d6, n6, e6⟩ := h.factor ((rMax.val - rMin.val) * d1 * ((x.val - mn.val) * d2) * d4 / ((mx.val - mn.val) * d3) * d5 + rMin.val)
      rw [e6]
      have l1 := h.lt_one
      have m1 : Near u 6 (d1 * d2 * d4 / d3 * d5 * d6) :=
        ((((n1.mul l1 n2).mul l1 n4).div l1 n3).mul l1 n5).mul l1 n6
      have m2 : Near u 6 d6 := n6.mono h.nonneg l1 (by norm_num)
      have hd3 := n3.pos l1
      have hmm : mx.val - mn.val ≠ 0 := by linarith
      obtain ⟨T, hT⟩ : ∃ T, T = (rMax.val - rMin.val) * (x.val - mn.val) / (mx.val - mn.val) := ⟨_, rfl⟩
      have eT : (rMax.val - rMin.val) * d1 * ((x.val - mn.val) * d2) * d4 / ((mx.val - mn.val) * d3) * d5 =
          T * (d1 * d2 * d4 / d3 * d5) := by rw [hT]; field_simp
      have hT0 : 0 ≤ T := by
        rw [hT]; apply div_nonneg (mul_nonneg _ _) <;> linarith
      rw [eT, ← hT]
      have f1 := factor_err (x := T) h (by push_cast; linarith) m1
      have f2 := factor_err (x := rMin.val) h (by push_cast; linarith) m2
      rw [abs_of_nonneg hT0] at f1
      have e7 : (T * (d1 * d2 * d4 / d3 * d5) + rMin.val) * d6 - (T + rMin.val) =
          (T * (d1 * d2 * d4 / d3 * d5 * d6) - T) + (rMin.val * d6 - rMin.val) := by ring
      rw [e7]
      refine (abs_add_le _ _).trans ?_
      linarith

/-- the double nearest to 0.1 -/
noncomputable def tenth : ℝ := 7205759403792794 * (2 : ℝ) ^ (-56 : ℤ)

/-- **C86.** The top of the range can be exceeded: in doubles `scale_to_range([0, 0.1], 0, 0.1)` is
`[0, 0.10000000000000002]`, its last element larger than `r_max`. -/
theorem C86_range_exceeded : rnd53 (1 / 10) = tenth ∧
    ∃ y : Rd rnd53, scaleToRange [⟨0⟩, ⟨tenth⟩] ⟨0⟩ ⟨tenth⟩ = .ok [⟨0⟩, y] ∧ tenth < y.val ∧ y.val = 7205759403792795 * (2 : ℝ) ^ (-56 : ℤ) := by
  have h := rounding_rnd53
  have ht : 0 < tenth := by unfold tenth; positivity
  have h10 : rnd53 (1 / 10) = tenth := by
    have := rnd53_eval (1 / 10) 7205759403792794 (-56) (by norm_num) (by norm_num) (by norm_num [abs_lt])
    rw [this]; unfold tenth; norm_num
  have hg : rnd53 tenth = tenth := by
    have := rnd53_grid 7205759403792794 (-56) (by norm_num)
    unfold tenth
    norm_num at this ⊢
    exact this
  have h1 : rnd53 (tenth * tenth) = 5764607523034236 * (2 : ℝ) ^ (-59 : ℤ) := by
    have := rnd53_eval (tenth * tenth) 5764607523034236 (-59) (by norm_num [tenth]) (by norm_num [tenth]) (by norm_num [tenth, abs_lt])
    rw [this]; norm_num
  have h2 : rnd53 (5764607523034236 * (2 : ℝ) ^ (-59 : ℤ) / tenth) = 7205759403792795 * (2 : ℝ) ^ (-56 : ℤ) := by
    have := rnd53_eval (5764607523034236 * (2 : ℝ) ^ (-59 : ℤ) / tenth) 7205759403792795 (-56) (by norm_num [tenth]) (by norm_num [tenth])
      (by norm_num [tenth, abs_lt])
    rw [this]; norm_num
  have h3 : rnd53 (7205759403792795 * (2 : ℝ) ^ (-56 : ℤ)) = 7205759403792795 * (2 : ℝ) ^ (-56 : ℤ) := by
    have := rnd53_grid 7205759403792795 (-56) (by norm_num)
    norm_num at this ⊢
    exact this
  refine ⟨h10, ⟨7205759403792795 * (2 : ℝ) ^ (-56 : ℤ)⟩, ?_, by norm_num [tenth], rfl⟩
  obtain ⟨ys, e, hm⟩ := scale_rd h [⟨0⟩, ⟨tenth⟩] (⟨0⟩ : Rd rnd53) ⟨tenth⟩ ⟨0⟩ ⟨tenth⟩ (by simp) (by simp)
    (by intro x hx; simp only [List.mem_cons, List.not_mem_nil, or_false] at hx; rcases hx with rfl | rfl <;> simp [ht.le])
    (by intro x hx; simp only [List.mem_cons, List.not_mem_nil, or_false] at hx; rcases hx with rfl | rfl <;> simp [ht.le])
  rw [e]
  simp only [List.map_cons, List.map_nil, sub_zero, hg, h.zero, mul_zero, zero_div, add_zero, h1, h2, h3] at hm
  match ys, hm with
  | [y1, y2], hm =>
    simp only [List.map_cons, List.map_nil, List.cons.injEq, and_true] at hm
    rw [show y1 = ⟨0⟩ from Rd.ext hm.1, show y2 = ⟨_⟩ from Rd.ext hm.2]

/-! ### partition_segment -/

theorem sample_rd {d : ℕ} (p1 p2 : Fin d → Rd rnd) (n : ℕ) (hn : 2 ≤ n) (endpoint : Bool) :
    ∃ ys : List (Fin d → Rd rnd), partitionSegment (α := Rd rnd) p1 p2 (some (n : ℤ)) endpoint = .ok ys ∧ ys.length = n ∧
      ∀ (j : ℕ) (y : Fin d → Rd rnd), ys[j]? = some y → ∀ i, (y i).val =
        rnd (rnd ((if endpoint && j + 1 == n then Num.lit 1 else
          Num.lit (j : ℚ) * (Num.lit 1 / Num.lit (((if endpoint then n - 1 else n : ℕ)) : ℚ)) : Rd rnd).val *
            rnd ((p2 i).val - (p1 i).val)) + (p1 i).val) := by
  have h1 : ¬ ((n : ℤ) < 2) := by omega
  refine ⟨_, by simp only [partitionSegment, if_neg h1]; rfl, by simp [linspace01], ?_⟩
  intro j y hy i
  simp only [linspace01, Int.toNat_natCast, List.map_map, List.getElem?_map, Option.map_eq_some_iff] at hy
  obtain ⟨k, hk, rfl⟩ := hy
  rw [List.getElem?_eq_some_iff] at hk
  obtain ⟨hk1, hk2⟩ := hk
  simp only [List.getElem_range] at hk2
  subst hk2
  rfl

/-- **C86.** A sample of `partition_segment` in rounded arithmetic is right up to `gam u 7` times the sizes of its terms, in
every component and any dimension. -/
theorem C86_sample (h : Rounding rnd u) (hu : 7 * u < 1) {d : ℕ} (p1 p2 : Fin d → Rd rnd) (n : ℕ) (hn : 2 ≤ n) (endpoint : Bool) :
    ∃ ys : List (Fin d → Rd rnd), partitionSegment (α := Rd rnd) p1 p2 (some (n : ℤ)) endpoint = .ok ys ∧ ys.length = n ∧
      ∀ (j : ℕ) (y : Fin d → Rd rnd), ys[j]? = some y → ∀ i,
        |(y i).val - ((j : ℝ) / ((if endpoint then n - 1 else n : ℕ) : ℝ) * ((p2 i).val - (p1 i).val) + (p1 i).val)| ≤
          gam u 7 * (|(p2 i).val - (p1 i).val| + |(p1 i).val|) := by
  obtain ⟨ys, e, hl, hv⟩ := sample_rd p1 p2 n hn endpoint
  refine ⟨ys, e, hl, ?_⟩
  intro j y hy i
  rw [hv j y hy i]
  have l1 := h.lt_one
  have hj : j < n := by
    have := (List.getElem?_eq_some_iff.mp hy).1
    rwa [hl] at this
  obtain ⟨m, hm⟩ : ∃ m : ℕ, m = if endpoint then n - 1 else n := ⟨_, rfl⟩
  rw [← hm]
  have hm1 : 1 ≤ m := by rw [hm]; split <;> omega
  have hjm : j ≤ m := by
    rw [hm]; split <;> omega
  have hm0 : (0 : ℝ) < m := by exact_mod_cast hm1
  have ho : (Num.lit 1 : Rd rnd).val = 1 := by rw [Rd.val_lit]; push_cast; exact h.one
  have hw : ∃ t, Near u 4 t ∧ (if endpoint && j + 1 == n then Num.lit 1 else Num.lit (j : ℚ) * (Num.lit 1 / Num.lit (m : ℚ)) : Rd rnd).val =
      (j : ℝ) / m * t := by
    split
    · next hc =>
      simp only [Bool.and_eq_true, beq_iff_eq] at hc
      refine ⟨1, near_one h 4, ?_⟩
      have : j = m := by rw [hm, if_pos hc.1]; omega
      rw [this, div_self hm0.ne', ho]; norm_num
    · obtain ⟨t1, n1, e1⟩ := h.factor (j : ℝ)
      obtain ⟨t2, n2, e2⟩ := h.factor (m : ℝ)
      obtain ⟨t3, n3, e3⟩ := h.factor (1 / ((m : ℝ) * t2))
      obtain ⟨t4, n4, e4⟩ := h.factor ((j : ℝ) * t1 * (1 / ((m : ℝ) * t2) * t3))
      refine ⟨t1 / t2 * t3 * t4, ((n1.div l1 n2).mul l1 n3).mul l1 n4, ?_⟩
      have := n2.pos l1
      rw [Rd.val_mul, Rd.val_div, ho, Rd.val_lit, Rd.val_lit]
      push_cast
      rw [e1, e2, e3, e4]
      field_simp
  obtain ⟨t, nt, et⟩ := hw
  rw [et]
  obtain ⟨W, hW⟩ : ∃ W, W = (j : ℝ) / m := ⟨_, rfl⟩
  have hW0 : 0 ≤ W := by rw [hW]; positivity
  have hW1 : W ≤ 1 := by rw [hW, div_le_one hm0]; exact_mod_cast hjm
  rw [← hW]
  obtain ⟨D, hD⟩ : ∃ D, D = (p2 i).val - (p1 i).val := ⟨_, rfl⟩
  rw [← hD]
  obtain ⟨s1, k1, f1⟩ := h.factor D
  rw [f1]
  obtain ⟨s2, k2, f2⟩ := h.factor (W * t * (D * s1))
  rw [f2]
  obtain ⟨s3, k3, f3⟩ := h.factor (W * t * (D * s1) * s2 + (p1 i).val)
  rw [f3]
  have g1 := factor_err (x := W * D) h (by push_cast; linarith) (((nt.mul l1 k1).mul l1 k2).mul l1 k3)
  have g2 := factor_err (x := (p1 i).val) h (by push_cast; linarith) (k3.mono h.nonneg l1 (by norm_num : 1 ≤ 7))
  have g := gam_nonneg (k := 7) h.nonneg (by push_cast; linarith)
  have hWD : |W * D| ≤ |D| := by
    rw [abs_mul, abs_of_nonneg hW0]; exact mul_le_of_le_one_left (abs_nonneg _) hW1
  have g3 := g1.trans (mul_le_mul_of_nonneg_left hWD g)
  rw [show (W * t * (D * s1) * s2 + (p1 i).val) * s3 - (W * D + (p1 i).val) =
    (W * D * (t * s1 * s2 * s3) - W * D) + ((p1 i).val * s3 - (p1 i).val) by ring]
  refine (abs_add_le _ _).trans ?_
  rw [mul_add]
  exact add_le_add g3 g2

/-- **C86.** The first sample is the first point exactly; the last one (with the end point) is the second point if
the difference of the points is exact. -/
theorem C86_ends (h : Rounding rnd u) {d : ℕ} (p1 p2 : Fin d → Rd rnd) (n : ℕ) (hn : 2 ≤ n)
    (h1 : ∀ i, rnd (p1 i).val = (p1 i).val) (h2 : ∀ i, rnd (p2 i).val = (p2 i).val) :
    ∃ ys : List (Fin d → Rd rnd), partitionSegment (α := Rd rnd) p1 p2 (some (n : ℤ)) = .ok ys ∧ ys.head? = some p1 ∧
      ((∀ i, rnd ((p2 i).val - (p1 i).val) = (p2 i).val - (p1 i).val) → ys.getLast? = some p2) := by
  obtain ⟨ys, e, hl, hv⟩ := sample_rd p1 p2 n hn true
  refine ⟨ys, e, ?_, ?_⟩
  · have : 0 < ys.length := by omega
    obtain ⟨y, hy⟩ : ∃ y, ys[0]? = some y := ⟨ys[0], List.getElem?_eq_getElem this⟩
    rw [List.head?_eq_getElem?, hy]
    congr 1
    funext i
    apply Rd.ext
    rw [hv 0 y hy i]
    have : (true && 0 + 1 == n) = false := by simp; omega
    rw [this]
    simp only [Bool.false_eq_true, if_false, Rd.val_mul, Rd.val_lit, Nat.cast_zero, Rat.cast_zero, h.zero, zero_mul, zero_add]
    exact h1 i
  · intro hd
    have : n - 1 < ys.length := by omega
    obtain ⟨y, hy⟩ : ∃ y, ys[n - 1]? = some y := ⟨ys[n - 1], List.getElem?_eq_getElem this⟩
    rw [List.getLast?_eq_getElem?, hl, hy]
    congr 1
    funext i
    apply Rd.ext
    rw [hv (n - 1) y hy i]
    have : (true && n - 1 + 1 == n) = true := by simp; omega
    rw [this, if_pos rfl, Rd.val_lit]
    push_cast
    rw [h.one, one_mul, hd i, hd i, sub_add_cancel]
    exact h2 i

/-- **C86.** Otherwise the last sample can miss the second point altogether: from 1 to 2^-60, the samples end at 0. -/
theorem C86_last_sample : ∃ (p2 : Fin 1 → Rd rnd53) (ys : List (Fin 1 → Rd rnd53)), (p2 0).val = 1 / 2 ^ 60 ∧
    partitionSegment (α := Rd rnd53) (fun _ => ⟨1⟩) p2 (some 5) = .ok ys ∧ ∃ y, ys.getLast? = some y ∧ (y 0).val = 0 := by
  have h := rounding_rnd53
  obtain ⟨ys, e, hl, hv⟩ := sample_rd (fun _ => (⟨1⟩ : Rd rnd53)) (fun _ : Fin 1 => ⟨1 / 2 ^ 60⟩) 5 (by norm_num) true
  have : 4 < ys.length := by omega
  obtain ⟨y, hy⟩ : ∃ y, ys[4]? = some y := ⟨ys[4], List.getElem?_eq_getElem this⟩
  refine ⟨fun _ => ⟨1 / 2 ^ 60⟩, ys, rfl, e, y, by rw [List.getLast?_eq_getElem?, hl, hy], ?_⟩
  rw [hv 4 y hy 0]
  have hr : rnd53 (1 / 2 ^ 60 - 1) = -1 := by
    have := rnd53_eval (1 - 1 / 2 ^ 60) 9007199254740992 (-53) (by norm_num) (by norm_num) (by norm_num [abs_lt])
    rw [show (1 : ℝ) / 2 ^ 60 - 1 = -(1 - 1 / 2 ^ 60) by ring, rnd53_neg, this]
    norm_num
  have hm : rnd53 (-1) = -1 := by rw [rnd53_neg, h.one]
  show rnd53 (rnd53 (rnd53 ((1 : ℚ) : ℝ) * rnd53 (1 / 2 ^ 60 - 1)) + 1) = 0
  rw [hr, Rat.cast_one, h.one, one_mul, hm, neg_add_cancel, h.zero]

/-! ### line_segment_xsection -/

/-- **C86.** In doubles a segment whose ends lie strictly on both sides of a plane, also as `sign` computes it, may be
found not to meet the plane: from x = -1 to x = 6/2^55, with the plane x = 5/2^55. -/
theorem C86_crossing_missed : ∃ (pl : Plane (Rd rnd53)) (a b : V3 (Rd rnd53)),
    (∀ x ∈ [a.x, a.y, a.z, b.x, b.y, b.z, pl.r0.x, pl.r0.y, pl.r0.z, pl.n.x, pl.n.y, pl.n.z], rnd53 x.val = x.val) ∧
    len3 (Rd.vec pl.n) = 1 ∧ height (exactPlane pl) (Rd.vec a) < 0 ∧ 0 < height (exactPlane pl) (Rd.vec b) ∧
    (pl.signedDistance1 a).val < 0 ∧ 0 < (pl.signedDistance1 b).val ∧ pl.lineSegmentXsection a b = none := by
  have h := rounding_rnd53
  have hgrid : ∀ k : ℤ, |k| ≤ 2 ^ 53 → rnd53 (k * (2 : ℝ) ^ (-55 : ℤ)) = k * (2 : ℝ) ^ (-55 : ℤ) := fun k hk => rnd53_grid k (-55) hk
  have z : rnd53 0 = 0 := h.zero
  have o : rnd53 1 = 1 := h.one
  have m : rnd53 (-1) = -1 := by rw [rnd53_neg, o]
  have g1 : rnd53 (1 / 2 ^ 55) = 1 / 2 ^ 55 := by have := hgrid 1 (by norm_num); norm_num at this ⊢; exact this
  have g5 : rnd53 (5 / 2 ^ 55) = 5 / 2 ^ 55 := by have := hgrid 5 (by norm_num); norm_num at this ⊢; exact this
  have g6 : rnd53 (6 / 2 ^ 55) = 6 / 2 ^ 55 := by have := hgrid 6 (by norm_num); norm_num at this ⊢; exact this
  have g8 : rnd53 (8 / 2 ^ 55) = 8 / 2 ^ 55 := by have := hgrid 8 (by norm_num); norm_num at this ⊢; exact this
  have s5 : rnd53 (5 / 2 ^ 55 + 1) = 1 + 1 / 2 ^ 52 := by
    rw [rnd53_eval _ 4503599627370497 (-52) (by norm_num) (by norm_num) (by norm_num [abs_lt])]; norm_num
  have s6 : rnd53 (6 / 2 ^ 55 + 1) = 1 + 1 / 2 ^ 52 := by
    rw [rnd53_eval _ 4503599627370497 (-52) (by norm_num) (by norm_num) (by norm_num [abs_lt])]; norm_num
  have s0 : rnd53 (1 + 1 / 2 ^ 52) = 1 + 1 / 2 ^ 52 := by rw [← s5, rnd53_idem]
  have d1 : rnd53 (-1 + -(5 / 2 ^ 55)) < 0 := by
    have : rnd53 (-1 + -(5 / 2 ^ 55)) = -rnd53 (5 / 2 ^ 55 + 1) := by rw [← rnd53_neg]; congr 1; ring
    rw [this, s5]; norm_num
  have d2 : 0 < rnd53 (6 / 2 ^ 55 + -(5 / 2 ^ 55)) := by
    rw [show (6 : ℝ) / 2 ^ 55 + -(5 / 2 ^ 55) = 1 / 2 ^ 55 by norm_num, g1]; norm_num
  have d3 : rnd53 (1 + 1 / 2 ^ 52 + -1) = 8 / 2 ^ 55 := by
    rw [show (1 : ℝ) + 1 / 2 ^ 52 + -1 = 8 / 2 ^ 55 by norm_num, g8]
  have q56 : (5 : ℝ) / 2 ^ 55 < 6 / 2 ^ 55 := by norm_num
  have q68 : (6 : ℝ) / 2 ^ 55 < 8 / 2 ^ 55 := by norm_num
  have q0 : (0 : ℝ) < 5 / 2 ^ 55 := by norm_num
  have hs0 : (1 : ℝ) + 1 / 2 ^ 52 ≠ 0 := by norm_num
  clear g1
  generalize (1 : ℝ) + 1 / 2 ^ 52 = S at *
  generalize (5 : ℝ) / 2 ^ 55 = c5 at *
  generalize (6 : ℝ) / 2 ^ 55 = c6 at *
  generalize (8 : ℝ) / 2 ^ 55 = c8 at *
  refine ⟨⟨⟨⟨c5⟩, ⟨0⟩, ⟨0⟩⟩, ⟨⟨1⟩, ⟨0⟩, ⟨0⟩⟩⟩, ⟨⟨-1⟩, ⟨0⟩, ⟨0⟩⟩, ⟨⟨c6⟩, ⟨0⟩, ⟨0⟩⟩, ?_, ?_, ?_, ?_, ?_, ?_, ?_⟩
  · intro x hx
    simp only [List.mem_cons, List.not_mem_nil, or_false] at hx
    rcases hx with rfl | rfl | rfl | rfl | rfl | rfl | rfl | rfl | rfl | rfl | rfl | rfl <;> assumption
  · simp [len3, Rd.vec]
  · simp only [height, exactPlane, inner3, vec3, Rd.vec]; linarith
  · simp only [height, exactPlane, inner3, vec3, Rd.vec]; linarith
  · simpa [Plane.signedDistance1, Plane.equation, V3.dot, z, m, o, g5] using d1
  · simpa [Plane.signedDistance1, Plane.equation, V3.dot, z, m, o, g5, g6] using d2
  · have e : ∀ pt ray : V3 (Rd rnd53), pt = ⟨⟨-1⟩, ⟨0⟩, ⟨0⟩⟩ → ray = ⟨⟨S⟩, ⟨0⟩, ⟨0⟩⟩ →
        Plane.lineXsection (⟨⟨⟨c5⟩, ⟨0⟩, ⟨0⟩⟩, ⟨⟨1⟩, ⟨0⟩, ⟨0⟩⟩⟩ : Plane (Rd rnd53)) pt ray = some ⟨⟨c8⟩, ⟨0⟩, ⟨0⟩⟩ := by
      rintro pt ray rfl rfl
      have hd : (V3.dot (⟨⟨S⟩, ⟨0⟩, ⟨0⟩⟩ : V3 (Rd rnd53)) ⟨⟨1⟩, ⟨0⟩, ⟨0⟩⟩) = ⟨S⟩ := by
        apply Rd.ext; simp [V3.dot, z, s0]
      have hn : (V3.dot ((⟨⟨c5⟩, ⟨0⟩, ⟨0⟩⟩ : V3 (Rd rnd53)) - ⟨⟨-1⟩, ⟨0⟩, ⟨0⟩⟩) ⟨⟨1⟩, ⟨0⟩, ⟨0⟩⟩) = ⟨S⟩ := by
        apply Rd.ext; simp [V3.dot, z, s0, s5]
      unfold Plane.lineXsection
      simp only [Plane.normal, Plane.referencePoint, hd, hn]
      rw [if_neg (by simpa [z] using hs0)]
      congr 1
      ext <;> simp [V3.smul, z, o, s0, div_self hs0, d3]
    have hr : (⟨⟨c6⟩, ⟨0⟩, ⟨0⟩⟩ : V3 (Rd rnd53)) - ⟨⟨-1⟩, ⟨0⟩, ⟨0⟩⟩ = ⟨⟨S⟩, ⟨0⟩, ⟨0⟩⟩ := by
      ext <;> simp [z, s6]
    unfold Plane.lineSegmentXsection
    rw [e _ _ rfl hr]
    have : Plane.outOfBounds (⟨⟨c8⟩, ⟨0⟩, ⟨0⟩⟩ : V3 (Rd rnd53)) ⟨⟨-1⟩, ⟨0⟩, ⟨0⟩⟩ ⟨⟨c6⟩, ⟨0⟩, ⟨0⟩⟩ = true := by
      have h1 : Plane.beyond (⟨c8⟩ : Rd rnd53) ⟨-1⟩ ⟨c6⟩ = true := by
        unfold Plane.beyond
        rw [Bool.and_eq_true, Rd.lt_iff, Rd.lt_iff]
        exact ⟨by show (-1 : ℝ) < c8; linarith, q68⟩
      unfold Plane.outOfBounds
      rw [h1]; simp
    simp [this]

end Blmath.Props
