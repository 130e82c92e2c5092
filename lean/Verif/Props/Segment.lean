import Verif.Model.Segment
import Verif.Spec.Space
import Verif.Spec.Plane
import Verif.Proofs.V3
import Mathlib.Tactic.FieldSimp
import Mathlib.Tactic.LinearCombination
import Mathlib.Tactic.NormNum

/-!
Properties C41-C43: partitions of segments and chains, intersection of lines.
-/

namespace Blmath.Props
open Blmath.Geometry Blmath.Spec Blmath.Fl

/-! ### C41: partition_segment -/

theorem linspace01_length {α : Type} [Num α] (n : ℕ) (e : Bool) :
    (linspace01 (α := α) n e).length = n := by simp [linspace01]

theorem linspace01_real (n : ℕ) (hn : 2 ≤ n) (e : Bool) (i : ℕ) (hi : i < (linspace01 (α := ℝ) n e).length) :
    (linspace01 (α := ℝ) n e)[i] = (i : ℝ) / (if e then (n : ℝ) - 1 else n) := by
  rw [linspace01_length] at hi
  have hn' : (2 : ℝ) ≤ n := by exact_mod_cast hn
  simp only [linspace01, List.getElem_map, List.getElem_range]
  cases e with
  | false => simp [div_eq_mul_inv]
  | true =>
    by_cases h : i + 1 = n
    · have h' : (i : ℝ) = n - 1 := by rw [← h]; push_cast; ring
      have : (n : ℝ) - 1 ≠ 0 := by linarith
      simp [h, h', div_self this]
    · have hc : ((n - 1 : ℕ) : ℝ) = n - 1 := by rw [Nat.cast_sub (by omega)]; simp
      simp [h, hc, div_eq_mul_inv]

/-- **C41.** `partition_segment` with `k ≥ 2` samples: exactly `k` points, the `i`-th at fraction
`i/(k-1)` (endpoint included) or `i/k` (excluded) of the way, in every dimension. -/
theorem C41_partition_segment {n : ℕ} (p1 p2 : Fin n → ℝ) (k : ℤ) (hk : 2 ≤ k) (e : Bool) :
    ∃ pts : List (Fin n → ℝ), partitionSegment (α := ℝ) p1 p2 (some k) e = .ok pts ∧
      pts.length = k.toNat ∧
      ∀ (i : ℕ) (hi : i < pts.length),
        pts[i] = between p1 p2 ((i : ℝ) / (if e then (k : ℝ) - 1 else k)) := by
  unfold partitionSegment
  simp only [not_lt.mpr hk, if_false]
  refine ⟨_, rfl, by simp [linspace01_length], ?_⟩
  intro i hi
  have hk' : ((k.toNat : ℕ) : ℝ) = k := by
    have : ((k.toNat : ℤ)) = k := Int.toNat_of_nonneg (by omega)
    exact_mod_cast this
  rw [List.getElem_map, linspace01_real _ (by omega), hk']
  funext c
  simp only [PointOps.add, PointOps.smul, PointOps.sub, between]
  ring

/-- the same for the 3-vectors used by the other models -/
theorem C41_partition_segment3 (p1 p2 : V3 ℝ) (k : ℤ) (hk : 2 ≤ k) (e : Bool) :
    ∃ pts : List (V3 ℝ), partitionSegment (α := ℝ) p1 p2 (some k) e = .ok pts ∧
      pts.length = k.toNat ∧
      ∀ (i : ℕ) (hi : i < pts.length),
        pts[i] = along p1 ((i : ℝ) / (if e then (k : ℝ) - 1 else k)) (vec3 p1 p2) := by
  unfold partitionSegment
  simp only [not_lt.mpr hk, if_false]
  refine ⟨_, rfl, by simp [linspace01_length], ?_⟩
  intro i hi
  have hk' : ((k.toNat : ℕ) : ℝ) = k := by
    have : ((k.toNat : ℤ)) = k := Int.toNat_of_nonneg (by omega)
    exact_mod_cast this
  rw [List.getElem_map, linspace01_real _ (by omega), hk']
  ext <;> simp only [PointOps.add, PointOps.smul, PointOps.sub, along, vec3, V3.add_x, V3.add_y,
    V3.add_z, V3.sub_x, V3.sub_y, V3.sub_z, V3.smul_x, V3.smul_y, V3.smul_z] <;> ring

/-- **C41.** The first sample is `p1`; the last one is `p2` exactly when the endpoint is included or
the two points are equal. -/
theorem C41_ends {n : ℕ} (p1 p2 : Fin n → ℝ) (k : ℤ) (hk : 2 ≤ k) (e : Bool) (pts : List (Fin n → ℝ))
    (h : partitionSegment (α := ℝ) p1 p2 (some k) e = .ok pts) :
    pts.head? = some p1 ∧ (pts.getLast? = some p2 ↔ e = true ∨ p1 = p2) := by
  obtain ⟨pts', h', hl, hv⟩ := C41_partition_segment p1 p2 k hk e
  rw [h] at h'
  injection h' with h'
  subst h'
  have hk2 : 2 ≤ k.toNat := by omega
  have hkr : ((k.toNat : ℕ) : ℝ) = k := by
    have : ((k.toNat : ℤ)) = k := Int.toNat_of_nonneg (by omega)
    exact_mod_cast this
  have hkge : (2 : ℝ) ≤ k := by exact_mod_cast hk
  constructor
  · rw [List.head?_eq_getElem?, List.getElem?_eq_getElem (by omega), hv 0 (by omega)]
    congr 1
    funext c; simp [between]
  · rw [List.getLast?_eq_getElem?, List.getElem?_eq_getElem (by omega), hv _ (by omega)]
    have hc : ((pts.length - 1 : ℕ) : ℝ) = k - 1 := by
      rw [hl, Nat.cast_sub (by omega), hkr]; simp
    rw [hc]
    cases e with
    | true =>
      have : (k : ℝ) - 1 ≠ 0 := by linarith
      simp only [if_true, div_self this, true_or, iff_true]
      congr 1
      funext c; simp [between]
    | false =>
      simp only [Bool.false_eq_true, if_false, false_or, Option.some.injEq]
      constructor
      · intro h
        funext c
        have := congrFun h c
        simp only [between] at this
        have hne : (1 : ℝ) - (k - 1) / k ≠ 0 := by
          have : (1 : ℝ) - (k - 1) / k = 1 / k := by field_simp; ring
          rw [this]; positivity
        have h2 : (1 - ((k : ℝ) - 1) / k) * (p1 c - p2 c) = 0 := by linarith
        rcases mul_eq_zero.mp h2 with h3 | h3
        · exact absurd h3 hne
        · linarith
      · rintro rfl
        funext c
        simp only [between]
        ring

/-- **C41.** Two samples are the two points themselves. -/
theorem C41_two {n : ℕ} (p1 p2 : Fin n → ℝ) :
    partitionSegment (α := ℝ) p1 p2 (some 2) true = .ok [p1, p2] := by
  obtain ⟨pts, h, hl, hv⟩ := C41_partition_segment p1 p2 2 le_rfl true
  rw [h]
  congr 1
  refine List.ext_getElem (by simpa using hl) ?_
  intro i h1 h2
  rw [hv i h1]
  simp only [List.length_cons, List.length_nil] at h2
  have : i = 0 ∨ i = 1 := by omega
  rcases this with rfl | rfl <;> (funext c; simp [between]; try norm_num)

/-- **C41.** A count that is not an int raises TypeError, one below two raises ValueError; so for
both partition functions, in any arithmetic. -/
theorem C41_errors {α P : Type} [Num α] [PointOps α P] (p1 p2 : P) (e : Bool) (k : ℤ) (hk : k < 2) :
    partitionSegment (α := α) p1 p2 none e = .error .TypeError ∧
    partitionSegment (α := α) p1 p2 (some k) e = .error .ValueError ∧
    partitionSegmentOld (α := α) p1 p2 none = .error .TypeError ∧
    partitionSegmentOld (α := α) p1 p2 (some k) = .error .ValueError := by
  simp [partitionSegment, partitionSegmentOld, hk]

/-! ### C41: partition_segment_old and partition -/

theorem sumFin_real {n : ℕ} (f : Fin n → ℝ) : sumFin f = ∑ i, f i := by
  induction n with
  | zero => simp [sumFin]
  | succ n ih => simp [sumFin, ih, Fin.sum_univ_succ]

theorem sumSq_pos {n : ℕ} (p q : Fin n → ℝ) (h : p ≠ q) :
    0 < PointOps.sumSq (α := ℝ) (PointOps.sub ℝ p q) := by
  simp only [PointOps.sumSq, PointOps.sub, sumFin_real]
  obtain ⟨c, hc⟩ := Function.ne_iff.mp h
  have hc' : 0 < (p c - q c) * (p c - q c) := mul_self_pos.mpr (sub_ne_zero.mpr hc)
  exact Finset.sum_pos' (fun i _ => mul_self_nonneg _) ⟨c, Finset.mem_univ c, hc'⟩

theorem sumSq_swap {n : ℕ} (p q : Fin n → ℝ) :
    PointOps.sumSq (α := ℝ) (PointOps.sub ℝ p q) = PointOps.sumSq (α := ℝ) (PointOps.sub ℝ q p) := by
  simp only [PointOps.sumSq, PointOps.sub, sumFin_real]
  exact Finset.sum_congr rfl fun i _ => by ring

/-- **C41.** `partition_segment_old` gives the `k-1` interior division points of a segment with
distinct ends. -/
theorem C41_partition_segment_old {n : ℕ} (p1 p2 : Fin n → ℝ) (hne : p1 ≠ p2) (k : ℤ) (hk : 2 ≤ k) :
    ∃ pts : List (Fin n → ℝ), partitionSegmentOld (α := ℝ) p1 p2 (some k) = .ok pts ∧
      pts.length = k.toNat - 1 ∧
      ∀ (i : ℕ) (hi : i < pts.length), pts[i] = between p1 p2 (((i : ℝ) + 1) / k) := by
  unfold partitionSegmentOld
  simp only [not_lt.mpr hk, if_false]
  refine ⟨_, rfl, by simp, ?_⟩
  intro i hi
  have hd : 0 < Real.sqrt (PointOps.sumSq (α := ℝ) (PointOps.sub ℝ p1 p2)) :=
    Real.sqrt_pos.mpr (sumSq_pos p1 p2 hne)
  have hkr : (k : ℝ) ≠ 0 := by
    have : (2 : ℝ) ≤ k := by exact_mod_cast hk
    linarith
  rw [List.getElem_map, List.getElem_range]
  simp only [Num.sqrt_real, Num.lit_real]
  generalize Real.sqrt (PointOps.sumSq (α := ℝ) (PointOps.sub ℝ p1 p2)) = d at *
  funext c
  simp only [PointOps.add, PointOps.smul, PointOps.sub, PointOps.sdiv, between]
  push_cast
  have := hd.ne'
  field_simp
  ring

theorem partitionFill_getElem? {α P : Type} [Num α] [PointOps α P] (k : ℕ) : ∀ (v : List P) (i j : ℕ)
    (hi : i + 1 < v.length) (_ : j < k),
    (partitionFill (α := α) v k)[i * k + j]? = (partitionOne (α := α) v[i] v[i + 1] k)[j]?
  | [], i, _, hi, _ => by simp at hi
  | [_], i, _, hi, _ => by simp at hi
  | a :: b :: rest, 0, j, _, hj => by
    rw [partitionFill, List.getElem?_append_left (by simp [partitionOne]; omega)]
    simp
  | a :: b :: rest, i + 1, j, hi, hj => by
    have hlen : (partitionOne (α := α) a b k).length = k := by simp [partitionOne]
    have e : (i + 1) * k + j - k = i * k + j := by
      rw [Nat.succ_mul]; omega
    rw [partitionFill, List.getElem?_append_right (by rw [hlen, Nat.succ_mul]; omega), hlen, e,
      partitionFill_getElem? k (b :: rest) i j (by simpa using hi) hj]
    rfl

theorem partitionFill_length {α P : Type} [Num α] [PointOps α P] (k : ℕ) : ∀ (v : List P),
    (partitionFill (α := α) v k).length = (v.length - 1) * k
  | [] => by simp [partitionFill]
  | [_] => by simp [partitionFill]
  | a :: b :: rest => by
    rw [partitionFill, List.length_append, partitionFill_length k (b :: rest)]
    simp [partitionOne, Nat.succ_mul]
    ring

/-- **C41.** `partition` of a chain of `m ≥ 1` points gives `(m-1)k + 1` points; the part between
positions `i*k` and `(i+1)*k` runs from `v[i]` to `v[i+1]` in equal steps whenever these differ, and
the last point is the last vertex. -/
theorem C41_partition {n : ℕ} (v : List (Fin n → ℝ)) (hv : v ≠ []) (k : ℕ) :
    ∃ pts : List (Fin n → ℝ), partition (α := ℝ) v k = .ok pts ∧
      pts.length = (v.length - 1) * k + 1 ∧ pts.getLast? = v.getLast? ∧
      ∀ (i j : ℕ) (hi : i + 1 < v.length), j < k → v[i] ≠ v[i + 1] →
        pts[i * k + j]? = some (between v[i] v[i + 1] ((j : ℝ) / k)) := by
  unfold partition
  rw [List.getLast?_eq_some_getLast hv]
  refine ⟨_, rfl, by simp [partitionFill_length], by simp, ?_⟩
  intro i j hi hj hne
  have hlt : i * k + j < (partitionFill (α := ℝ) v k).length := by
    rw [partitionFill_length]
    calc i * k + j < i * k + k := by omega
      _ = (i + 1) * k := by ring
      _ ≤ (v.length - 1) * k := Nat.mul_le_mul_right _ (by omega)
  rw [List.getElem?_append_left hlt, partitionFill_getElem? k v i j hi hj,
    List.getElem?_eq_getElem (by simpa [partitionOne] using hj)]
  congr 1
  have hd : 0 < Real.sqrt (PointOps.sumSq (α := ℝ) (PointOps.sub ℝ v[i + 1] v[i])) :=
    Real.sqrt_pos.mpr (sumSq_pos _ _ (Ne.symm hne))
  have hkr : (k : ℝ) ≠ 0 := by
    have : 0 < k := by omega
    exact_mod_cast this.ne'
  simp only [partitionOne, List.getElem_map, List.getElem_range, Num.sqrt_real, Num.lit_real]
  generalize Real.sqrt (PointOps.sumSq (α := ℝ) (PointOps.sub ℝ v[i + 1] v[i])) = d at *
  funext c
  simp only [PointOps.add, PointOps.smul, PointOps.sub, PointOps.sdiv, between]
  push_cast
  have := hd.ne'
  field_simp
  ring

/-- **C41.** In particular vertex `i` of the chain is at position `i*k`. -/
theorem C41_partition_vertices {n : ℕ} (v : List (Fin n → ℝ)) (k : ℕ) (hk : 0 < k)
    (hne : v.IsChain (· ≠ ·)) (pts : List (Fin n → ℝ)) (h : partition (α := ℝ) v k = .ok pts)
    (i : ℕ) (hi : i < v.length) : pts[i * k]? = some v[i] := by
  have hv : v ≠ [] := by rintro rfl; simp at hi
  obtain ⟨pts', h', hl, hlast, hp⟩ := C41_partition v hv k
  rw [h] at h'
  injection h' with h'
  subst h'
  by_cases hi' : i + 1 < v.length
  · have hne' : v[i] ≠ v[i + 1] := by
      have := List.isChain_iff_getElem.mp hne i hi'
      exact this
    have := hp i 0 hi' hk hne'
    rw [Nat.add_zero] at this
    rw [this]
    congr 1
    funext c; simp [between]
  · have hi2 : i = v.length - 1 := by omega
    rw [List.getLast?_eq_getElem?, List.getLast?_eq_getElem?, hl] at hlast
    have : (v.length - 1) * k + 1 - 1 = i * k := by rw [hi2]; omega
    rw [this, ← hi2, List.getElem?_eq_getElem hi] at hlast
    exact hlast

/-- **C41.** No points at all: IndexError. -/
theorem C41_partition_empty {α P : Type} [Num α] [PointOps α P] (k : ℕ) :
    partition (α := α) ([] : List P) k = .error .IndexError := rfl

theorem sumFin_fin_zero {n : ℕ} (f : Fin n → Fl) (h : ∀ c, f c = fin 0) : sumFin f = fin 0 := by
  induction n with
  | zero => simp [sumFin]
  | succ n ih => rw [sumFin, h 0, ih _ (fun c => h c.succ)]; simp

theorem repeated_row {n : ℕ} (p : Fin n → ℝ) (w : Fl) (c : Fin n) :
    PointOps.add Fl (fun c => fin (p c)) (PointOps.smul w (PointOps.sdiv (PointOps.sub Fl
      (fun c => fin (p c)) (fun c => fin (p c)) : Fin n → Fl)
      (Num.sqrt (PointOps.sumSq (α := Fl) (PointOps.sub Fl (fun c => fin (p c)) (fun c => fin (p c)) :
        Fin n → Fl))))) c = nan := by
  have hs : (PointOps.sumSq (α := Fl) (PointOps.sub Fl (fun c => fin (p c)) (fun c => fin (p c)) :
      Fin n → Fl) : Fl) = fin 0 := by
    simp only [PointOps.sumSq]
    apply sumFin_fin_zero
    intro c
    simp [PointOps.sub]
  rw [hs, sqrt_fin 0 le_rfl, Real.sqrt_zero]
  simp only [PointOps.add, PointOps.smul, PointOps.sdiv, PointOps.sub, sub_fin, sub_self,
    div_zero_zero, mul_nan, add_nan]

/-- **C41.** A repeated point gives NaN rows: every coordinate of every point placed on that
segment (its first vertex included) is NaN; so is every interior division point of
`partition_segment_old`. -/
theorem C41_repeated_nan {n : ℕ} (v : List (Fin n → Fl)) (k i : ℕ) (hi : i + 1 < v.length)
    (p : Fin n → ℝ) (h1 : v[i] = fun c => fin (p c)) (h2 : v[i + 1] = fun c => fin (p c)) :
    (∃ pts, partition (α := Fl) v k = .ok pts ∧
      ∀ j, j < k → ∃ row, pts[i * k + j]? = some row ∧ ∀ c, row c = nan) ∧
    ∀ K : ℤ, 2 ≤ K → ∃ pts, partitionSegmentOld (α := Fl) v[i] v[i + 1] (some K) = .ok pts ∧
      pts.length = K.toNat - 1 ∧ ∀ row ∈ pts, ∀ c, row c = nan := by
  constructor
  · unfold partition
    have hv : v ≠ [] := by rintro rfl; simp at hi
    rw [List.getLast?_eq_some_getLast hv]
    refine ⟨_, rfl, ?_⟩
    intro j hj
    have hlt : i * k + j < (partitionFill (α := Fl) v k).length := by
      rw [partitionFill_length]
      calc i * k + j < i * k + k := by omega
        _ = (i + 1) * k := by ring
        _ ≤ (v.length - 1) * k := Nat.mul_le_mul_right _ (by omega)
    rw [List.getElem?_append_left hlt, partitionFill_getElem? k v i j hi hj,
      List.getElem?_eq_getElem (by simpa [partitionOne] using hj)]
    refine ⟨_, rfl, ?_⟩
    intro c
    unfold partitionOne
    rw [List.getElem_map]
    simp only [h1, h2]
    exact repeated_row p _ c
  · intro K hK
    unfold partitionSegmentOld
    simp only [not_lt.mpr hK, if_false]
    refine ⟨_, rfl, by simp, ?_⟩
    intro row hrow c
    rw [List.mem_map] at hrow
    obtain ⟨j, _, rfl⟩ := hrow
    rw [h1, h2]
    exact repeated_row p _ c

example : ∃ pts, partition (α := ℝ) ([![0, 0], ![2, 0], ![2, 4]] : List (Fin 2 → ℝ)) 2 = .ok pts ∧ pts.length = 5 ∧
    pts[3]? = some (between ![2, 0] ![2, 4] (1 / 2)) := by
  obtain ⟨pts, h, hl, _, hp⟩ := C41_partition [![0, 0], ![2, 0], ![2, 4]] (by simp) 2
  refine ⟨pts, h, by simpa using hl, ?_⟩
  have := hp 1 1 (by simp) (by norm_num) (by
    intro h
    have := congrFun h 1
    norm_num at this)
  simpa using this

example : partitionSegment (α := ℝ) (![1] : Fin 1 → ℝ) ![5] (some 2) true = .ok [![1], ![5]] := C41_two _ _

/-! ### C42: line_intersect -/

theorem dependent2_iff (p0 q0 p1 q1 : ℝ × ℝ) :
    Dependent2 p0 q0 p1 q1 ↔
      (q0.1 - p0.1) * (q1.2 - p1.2) - (q0.2 - p0.2) * (q1.1 - p1.1) = 0 := by
  constructor
  · rintro ⟨a, b, hab, h1, h2⟩
    rcases hab with ha | hb
    · apply mul_left_cancel₀ ha
      linear_combination (q1.2 - p1.2) * h1 - (q1.1 - p1.1) * h2
    · apply mul_left_cancel₀ hb
      linear_combination (q0.1 - p0.1) * h2 - (q0.2 - p0.2) * h1
  · intro h
    by_cases hx : q1.1 - p1.1 = 0 ∧ q1.2 - p1.2 = 0
    · exact ⟨0, 1, Or.inr one_ne_zero, by simp [hx.1], by simp [hx.2]⟩
    · by_cases h1 : q1.1 - p1.1 = 0
      · have h2 : q1.2 - p1.2 ≠ 0 := fun h2 => hx ⟨h1, h2⟩
        refine ⟨q1.2 - p1.2, -(q0.2 - p0.2), Or.inl h2, ?_, by ring⟩
        rw [h1] at h ⊢; linear_combination h
      · refine ⟨q1.1 - p1.1, -(q0.1 - p0.1), Or.inl h1, by ring, ?_⟩
        linear_combination -h

theorem solve2_fin (a b c d r s : ℝ) :
    solve2 (fin a) (fin b) (fin c) (fin d) (fin r) (fin s) =
      open Classical in if a * d - b * c = 0 then .error .LinAlgError
      else .ok (fin ((r * d - b * s) / (a * d - b * c)), fin ((a * s - r * c) / (a * d - b * c))) := by
  unfold solve2
  simp only [mul_fin, sub_fin, lit_fl, Rat.cast_zero, eq_fin]
  by_cases h : a * d - b * c = 0
  · simp [h]
  · simp [h, div_fin]

/-- **C42.** For all finite points: if the directions are independent the answer is the one common
point of the two lines; otherwise (parallel, coincident or degenerate) both coordinates are NaN. -/
theorem C42_line_intersect (p0 q0 p1 q1 : ℝ × ℝ) :
    (¬ Dependent2 p0 q0 p1 q1 → ∃ x : ℝ × ℝ,
      lineIntersect (fin p0.1, fin p0.2) (fin q0.1, fin q0.2) (fin p1.1, fin p1.2)
        (fin q1.1, fin q1.2) = .ok (fin x.1, fin x.2) ∧
      OnLine2 p0 q0 x ∧ OnLine2 p1 q1 x ∧ ∀ y, OnLine2 p0 q0 y → OnLine2 p1 q1 y → y = x) ∧
    (Dependent2 p0 q0 p1 q1 →
      lineIntersect (fin p0.1, fin p0.2) (fin q0.1, fin q0.2) (fin p1.1, fin p1.2)
        (fin q1.1, fin q1.2) = .ok (nan, nan)) := by
  rw [dependent2_iff]
  obtain ⟨a0, b0⟩ := p0
  obtain ⟨c0, d0⟩ := q0
  obtain ⟨a1, b1⟩ := p1
  obtain ⟨c1, d1⟩ := q1
  simp only [lineIntersect, sub_fin, mul_fin, neg_fin, solve2_fin]
  constructor
  · intro h
    have h' : -(d0 - b0) * (c1 - a1) - (c0 - a0) * -(d1 - b1) ≠ 0 := by
      intro h2; apply h; linear_combination h2
    rw [if_neg h']
    refine ⟨(_, _), rfl, ⟨((a1 - a0) * (d1 - b1) - (b1 - b0) * (c1 - a1)) /
        (-(d0 - b0) * (c1 - a1) - (c0 - a0) * -(d1 - b1)), ?_⟩,
      ⟨((a1 - a0) * (d0 - b0) - (b1 - b0) * (c0 - a0)) /
        (-(d0 - b0) * (c1 - a1) - (c0 - a0) * -(d1 - b1)), ?_⟩, ?_⟩
    · obtain ⟨D, hD⟩ : ∃ D, D = -(d0 - b0) * (c1 - a1) - (c0 - a0) * -(d1 - b1) := ⟨_, rfl⟩
      rw [← hD] at h' ⊢
      ext <;> simp only <;> field_simp <;> rw [hD] <;> ring
    · obtain ⟨D, hD⟩ : ∃ D, D = -(d0 - b0) * (c1 - a1) - (c0 - a0) * -(d1 - b1) := ⟨_, rfl⟩
      rw [← hD] at h' ⊢
      ext <;> simp only <;> field_simp <;> rw [hD] <;> ring
    · rintro ⟨x, y⟩ ⟨t, ht⟩ ⟨s, hs⟩
      simp only [Prod.mk.injEq] at ht hs
      have e1 : (c0 - a0) * (y - b0) = (d0 - b0) * (x - a0) := by rw [ht.1, ht.2]; ring
      have e2 : (c1 - a1) * (y - b1) = (d1 - b1) * (x - a1) := by rw [hs.1, hs.2]; ring
      ext <;> simp only <;> rw [eq_div_iff h']
      · linear_combination (c1 - a1) * e1 - (c0 - a0) * e2
      · linear_combination (d1 - b1) * e1 - (d0 - b0) * e2
  · intro h
    have h' : -(d0 - b0) * (c1 - a1) - (c0 - a0) * -(d1 - b1) = 0 := by linear_combination h
    rw [if_pos h']
    simp [div_zero_zero]

example : ¬ Dependent2 (0, 0) (1, 1) (0, 2) (2, 0) := by rw [dependent2_iff]; norm_num
example : Dependent2 (0, 0) (1, 1) (0, 2) (1, 3) := ⟨1, -1, by norm_num, by norm_num, by norm_num⟩

/-! ### C43: line_intersect3 -/

theorem allEq3_real (a b : V3 ℝ) : allEq3 a b = true ↔ a = b := by
  unfold allEq3
  simp only [Bool.and_eq_true, Num.eq_real]
  constructor
  · rintro ⟨⟨h1, h2⟩, h3⟩; ext <;> assumption
  · rintro rfl; exact ⟨⟨rfl, rfl⟩, rfl⟩

theorem allEq3_normalized (s : ℝ) (hs : s ≠ 0) (k : V3 ℝ) (hk : k ≠ zero3) :
    allEq3 (V3.sdiv (scale3 s k) (len3 (scale3 s k))) (V3.sdiv k (len3 k)) = true ↔ 0 < s := by
  rw [allEq3_real]
  have hl := len3_pos hk
  have hs' : 0 < |s| := abs_pos.mpr hs
  rw [len3_scale]
  constructor
  · intro h
    by_contra hc
    have hneg : s < 0 := lt_of_le_of_ne (not_lt.mp hc) hs
    apply hk
    rw [abs_of_neg hneg] at h
    have hx := congrArg V3.x h
    have hy := congrArg V3.y h
    have hz := congrArg V3.z h
    simp only [V3.sdiv, scale3] at hx hy hz
    have hsn : -s ≠ 0 := by linarith
    rw [div_eq_div_iff (mul_ne_zero hsn hl.ne') hl.ne'] at hx hy hz
    have hsl : s * len3 k ≠ 0 := mul_ne_zero hs hl.ne'
    ext <;> simp only [zero3] <;> apply mul_left_cancel₀ hsl <;> linarith
  · intro h
    rw [abs_of_pos h]
    ext <;> simp only [V3.sdiv, scale3] <;> rw [mul_div_mul_left _ _ hs]

/-- **C43.** Two non-parallel lines with a common point `X` other than `p0`:
the answer is `X`. -/
theorem C43_meeting (p0 q0 p1 q1 X : V3 ℝ)
    (hnp : cross3 (vec3 p0 q0) (vec3 p1 q1) ≠ zero3)
    (h0 : OnLine p0 (vec3 p0 q0) X) (h1 : OnLine p1 (vec3 p1 q1) X) (hX : X ≠ p0) :
    lineIntersect3 p0 q0 p1 q1 = some X := by
  obtain ⟨s, rfl⟩ := h0
  obtain ⟨t, ht⟩ := h1
  have hx := congrArg V3.x ht
  have hy := congrArg V3.y ht
  have hz := congrArg V3.z ht
  simp only [along, vec3] at hx hy hz
  have hs : s ≠ 0 := by
    rintro rfl
    apply hX
    ext <;> simp [along]
  -- two points of both lines must be equal
  have key : ∀ s' t' : ℝ, along p0 s' (vec3 p0 q0) = along p1 t' (vec3 p1 q1) → s' = s := by
    intro s' t' h
    have hx' := congrArg V3.x h
    have hy' := congrArg V3.y h
    have hz' := congrArg V3.z h
    simp only [along, vec3] at hx' hy' hz'
    by_contra hne
    have hne' : s' - s ≠ 0 := sub_ne_zero.mpr hne
    apply hnp
    ext <;> simp only [cross3, vec3, zero3] <;> apply mul_left_cancel₀ hne'
    · linear_combination (q1.z - p1.z) * (hy' - hy) - (q1.y - p1.y) * (hz' - hz)
    · linear_combination (q1.x - p1.x) * (hz' - hz) - (q1.z - p1.z) * (hx' - hx)
    · linear_combination (q1.y - p1.y) * (hx' - hx) - (q1.x - p1.x) * (hy' - hy)
  have hp01 : ¬ p0 = p1 := fun h => hs (key 0 0 (by rw [h]; ext <;> simp [along])).symm
  have hp0q1 : ¬ p0 = q1 := fun h => hs (key 0 1 (by rw [h]; ext <;> simp [along, vec3])).symm
  unfold lineIntersect3
  simp only [Bool.or_eq_true, allEq3_real, hp01, hp0q1, or_self, if_false, or_false]
  by_cases hq : q0 = p1
  · rw [if_pos hq]
    have : s = 1 := (key 1 0 (by rw [hq]; ext <;> simp [along, vec3])).symm
    subst this
    congr 1
    ext <;> simp [along, vec3]
  · rw [if_neg hq]
    have hk : V3.cross (p1 - q1) (p0 - q0) ≠ zero3 := by
      intro h
      apply hnp
      have hx := congrArg V3.x h
      have hy := congrArg V3.y h
      have hz := congrArg V3.z h
      simp only [V3.cross, V3.sub_x, V3.sub_y, V3.sub_z, zero3] at hx hy hz
      ext <;> simp only [cross3, vec3, zero3] <;> linarith
    have hh : V3.cross (p1 - q1) (p0 - p1) = scale3 s (V3.cross (p1 - q1) (p0 - q0)) := by
      ext <;> simp only [V3.cross, V3.sub_x, V3.sub_y, V3.sub_z, scale3]
      · linear_combination (p1.y - q1.y) * hz - (p1.z - q1.z) * hy
      · linear_combination (p1.z - q1.z) * hx - (p1.x - q1.x) * hz
      · linear_combination (p1.x - q1.x) * hy - (p1.y - q1.y) * hx
    rw [hh]
    simp only [V3.norm_real, Num.eq_real, Num.lit_real]
    have hlk := len3_pos hk
    have hlh : len3 (scale3 s (V3.cross (p1 - q1) (p0 - q0))) = |s| * len3 (V3.cross (p1 - q1) (p0 - q0)) :=
      len3_scale _ _
    have habs : 0 < |s| := abs_pos.mpr hs
    rw [if_neg (by
      push_cast
      rw [hlh]
      rintro (h | h)
      · exact (mul_pos habs hlk).ne' h
      · exact hlk.ne' h)]
    have hq : |s| * len3 (V3.cross (p1 - q1) (p0 - q0)) / len3 (V3.cross (p1 - q1) (p0 - q0)) = |s| :=
      mul_div_cancel_right₀ _ hlk.ne'
    congr 1
    by_cases hpos : 0 < s
    · rw [if_pos ((allEq3_real _ _).mp ((allEq3_normalized s hs _ hk).mpr hpos)), hlh, hq, abs_of_pos hpos]
      ext <;> simp only [along, vec3, V3.add_x, V3.add_y, V3.add_z, V3.smul_x, V3.smul_y, V3.smul_z,
        V3.sub_x, V3.sub_y, V3.sub_z] <;> push_cast <;> ring
    · have hneg : s < 0 := lt_of_le_of_ne (not_lt.mp hpos) hs
      rw [if_neg (fun h => hpos ((allEq3_normalized s hs _ hk).mp ((allEq3_real _ _).mpr h))), hlh, hq, abs_of_neg hneg]
      ext <;> simp only [along, vec3, V3.add_x, V3.add_y, V3.add_z, V3.smul_x, V3.smul_y, V3.smul_z,
        V3.sub_x, V3.sub_y, V3.sub_z] <;> push_cast <;> ring

/-- **C43.** Parallel lines (or degenerate ones), with no shared defining point noticed: None. -/
theorem C43_parallel (p0 q0 p1 q1 : V3 ℝ) (hp : cross3 (vec3 p0 q0) (vec3 p1 q1) = zero3)
    (h1 : p0 ≠ p1) (h2 : p0 ≠ q1) (h3 : q0 ≠ p1) : lineIntersect3 p0 q0 p1 q1 = none := by
  unfold lineIntersect3
  simp only [Bool.or_eq_true, allEq3_real, h1, h2, h3, or_self, if_false, V3.norm_real, Num.eq_real]
  rw [if_pos]
  right
  have : V3.cross (p1 - q1) (p0 - q0) = zero3 := by
    have hx := congrArg V3.x hp
    have hy := congrArg V3.y hp
    have hz := congrArg V3.z hp
    simp only [cross3, vec3, zero3] at hx hy hz
    ext <;> simp only [V3.cross, V3.sub_x, V3.sub_y, V3.sub_z, zero3] <;> linarith
  rw [this, len3_eq_zero.mpr rfl]
  simp

/-- **C43.** A shared defining point that is noticed is returned, and is on both lines. -/
theorem C43_shared (p0 q0 p1 q1 : V3 ℝ) :
    (p0 = p1 ∨ p0 = q1 → lineIntersect3 p0 q0 p1 q1 = some p0 ∧ OnLine p0 (vec3 p0 q0) p0 ∧
      OnLine p1 (vec3 p1 q1) p0) ∧
    (p0 ≠ p1 → p0 ≠ q1 → q0 = p1 → lineIntersect3 p0 q0 p1 q1 = some q0 ∧
      OnLine p0 (vec3 p0 q0) q0 ∧ OnLine p1 (vec3 p1 q1) q0) := by
  constructor
  · intro h
    refine ⟨?_, ⟨0, by ext <;> simp [along]⟩, ?_⟩
    · unfold lineIntersect3
      rw [if_pos (by simpa [allEq3_real] using h)]
    · rcases h with rfl | rfl
      · exact ⟨0, by ext <;> simp [along]⟩
      · exact ⟨1, by ext <;> simp [along, vec3]⟩
  · intro h1 h2 h3
    refine ⟨?_, ⟨1, by ext <;> simp [along, vec3]⟩, ⟨0, by subst h3; ext <;> simp [along]⟩⟩
    unfold lineIntersect3
    simp only [Bool.or_eq_true, allEq3_real, h1, h2, or_self, if_false, h3, if_true, or_false]

theorem onLine_of_cross {p1 q1 X : V3 ℝ} (hf : p1 ≠ q1) (h : V3.cross (p1 - q1) (X - p1) = zero3) :
    OnLine p1 (vec3 p1 q1) X := by
  have hx := congrArg V3.x h
  have hy := congrArg V3.y h
  have hz := congrArg V3.z h
  simp only [V3.cross, V3.sub_x, V3.sub_y, V3.sub_z, zero3] at hx hy hz
  have hn : (p1.x - q1.x) ^ 2 + (p1.y - q1.y) ^ 2 + (p1.z - q1.z) ^ 2 ≠ 0 := by
    intro h0
    apply hf
    have h1 : p1.x - q1.x = 0 := by nlinarith [sq_nonneg (p1.x - q1.x), sq_nonneg (p1.y - q1.y), sq_nonneg (p1.z - q1.z)]
    have h2 : p1.y - q1.y = 0 := by nlinarith [sq_nonneg (p1.x - q1.x), sq_nonneg (p1.y - q1.y), sq_nonneg (p1.z - q1.z)]
    have h3 : p1.z - q1.z = 0 := by nlinarith [sq_nonneg (p1.x - q1.x), sq_nonneg (p1.y - q1.y), sq_nonneg (p1.z - q1.z)]
    ext <;> linarith
  refine ⟨-((p1.x - q1.x) * (X.x - p1.x) + (p1.y - q1.y) * (X.y - p1.y) + (p1.z - q1.z) * (X.z - p1.z)) /
    ((p1.x - q1.x) ^ 2 + (p1.y - q1.y) ^ 2 + (p1.z - q1.z) ^ 2), ?_⟩
  ext <;> simp only [along, vec3] <;> field_simp
  · linear_combination (p1.z - q1.z) * hy - (p1.y - q1.y) * hz
  · linear_combination (p1.x - q1.x) * hz - (p1.z - q1.z) * hx
  · linear_combination (p1.y - q1.y) * hx - (p1.x - q1.x) * hy

/-- **C43.** What is returned, for all inputs.  A shared defining point is returned if it is noticed (q0 = q1 is not).
Otherwise None, if the lines are parallel (or one of them is degenerate) or the second one passes through `p0`.
Otherwise a point of the first line, the common point if the lines meet. -/
theorem C43_decision (p0 q0 p1 q1 : V3 ℝ) :
    (p0 = p1 ∨ p0 = q1 → lineIntersect3 p0 q0 p1 q1 = some p0) ∧
    (p0 ≠ p1 → p0 ≠ q1 → q0 = p1 → lineIntersect3 p0 q0 p1 q1 = some q0) ∧
    (p0 ≠ p1 → p0 ≠ q1 → q0 ≠ p1 →
      (cross3 (vec3 p0 q0) (vec3 p1 q1) = zero3 ∨ OnLine p1 (vec3 p1 q1) p0 → lineIntersect3 p0 q0 p1 q1 = none) ∧
      (¬ (cross3 (vec3 p0 q0) (vec3 p1 q1) = zero3 ∨ OnLine p1 (vec3 p1 q1) p0) →
        ∃ X, lineIntersect3 p0 q0 p1 q1 = some X ∧ OnLine p0 (vec3 p0 q0) X ∧
          ((∃ Y, OnLine p0 (vec3 p0 q0) Y ∧ OnLine p1 (vec3 p1 q1) Y) → OnLine p1 (vec3 p1 q1) X))) := by
  refine ⟨fun h => ((C43_shared p0 q0 p1 q1).1 h).1, fun h1 h2 h3 => ((C43_shared p0 q0 p1 q1).2 h1 h2 h3).1, ?_⟩
  intro h1 h2 h3
  refine ⟨?_, ?_⟩
  · rintro (h | ⟨t, ht⟩)
    · exact C43_parallel p0 q0 p1 q1 h h1 h2 h3
    · unfold lineIntersect3
      simp only [Bool.or_eq_true, allEq3_real, h1, h2, h3, or_self, if_false, V3.norm_real, Num.eq_real]
      rw [if_pos]
      left
      have hx := congrArg V3.x ht
      have hy := congrArg V3.y ht
      have hz := congrArg V3.z ht
      simp only [along, vec3] at hx hy hz
      have : V3.cross (p1 - q1) (p0 - p1) = zero3 := by
        ext <;> simp only [V3.cross, V3.sub_x, V3.sub_y, V3.sub_z, zero3, hx, hy, hz] <;> ring
      rw [this, len3_eq_zero.mpr rfl]
      simp
  · intro hn
    push Not at hn
    obtain ⟨hn1, hn2⟩ := hn
    by_cases hY : ∃ Y, OnLine p0 (vec3 p0 q0) Y ∧ OnLine p1 (vec3 p1 q1) Y
    · obtain ⟨Y, hY0, hY1⟩ := hY
      refine ⟨Y, C43_meeting p0 q0 p1 q1 Y hn1 hY0 hY1 ?_, hY0, fun _ => hY1⟩
      rintro rfl
      exact hn2 hY1
    · have hf : p1 ≠ q1 := by
        rintro rfl
        apply hn1
        ext <;> simp [cross3, vec3, zero3]
      have hk : V3.cross (p1 - q1) (p0 - q0) ≠ zero3 := by
        intro h
        apply hn1
        have hx := congrArg V3.x h
        have hy := congrArg V3.y h
        have hz := congrArg V3.z h
        simp only [V3.cross, V3.sub_x, V3.sub_y, V3.sub_z, zero3] at hx hy hz
        ext <;> simp only [cross3, vec3, zero3] <;> linarith
      have hh : V3.cross (p1 - q1) (p0 - p1) ≠ zero3 := fun h => hn2 (onLine_of_cross hf h)
      unfold lineIntersect3
      simp only [Bool.or_eq_true, allEq3_real, h1, h2, h3, or_self, if_false, V3.norm_real, Num.eq_real, Num.lit_real,
        Rat.cast_zero, len3_eq_zero, hk, hh]
      refine ⟨_, rfl, ?_, fun h => absurd h hY⟩
      refine ⟨-((if V3.sdiv (V3.cross (p1 - q1) (p0 - p1)) (len3 (V3.cross (p1 - q1) (p0 - p1))) =
        V3.sdiv (V3.cross (p1 - q1) (p0 - q0)) (len3 (V3.cross (p1 - q1) (p0 - q0))) then ((-1 : ℚ) : ℝ) else ((1 : ℚ) : ℝ)) *
        (len3 (V3.cross (p1 - q1) (p0 - p1)) / len3 (V3.cross (p1 - q1) (p0 - q0)))), ?_⟩
      ext <;> simp only [along, vec3, V3.add_x, V3.add_y, V3.add_z, V3.smul_x, V3.smul_y, V3.smul_z,
        V3.sub_x, V3.sub_y, V3.sub_z] <;> ring

/-- **C43 violated.** The lines meet in one point, but it is `p0`: the answer is None. -/
theorem C43_none_at_p0 :
    let p0 : V3 ℝ := ⟨0, 0, 0⟩; let q0 : V3 ℝ := ⟨1, 0, 0⟩
    let p1 : V3 ℝ := ⟨0, -1, 0⟩; let q1 : V3 ℝ := ⟨0, 1, 0⟩
    OnLine p0 (vec3 p0 q0) p0 ∧ OnLine p1 (vec3 p1 q1) p0 ∧
    cross3 (vec3 p0 q0) (vec3 p1 q1) ≠ zero3 ∧ lineIntersect3 p0 q0 p1 q1 = none := by
  refine ⟨⟨0, by ext <;> simp [along]⟩, ⟨1 / 2, by ext <;> simp [along, vec3] <;> norm_num⟩, ?_, ?_⟩
  · intro h
    have := congrArg V3.z h
    norm_num [cross3, vec3, zero3] at this
  · unfold lineIntersect3
    have e : V3.cross ((⟨0, -1, 0⟩ : V3 ℝ) - ⟨0, 1, 0⟩) (⟨0, 0, 0⟩ - ⟨0, -1, 0⟩) = zero3 := by
      ext <;> norm_num [V3.cross, zero3]
    simp only [Bool.or_eq_true, allEq3_real, V3.norm_real, Num.eq_real, e]
    rw [if_neg (by norm_num [V3.ext_iff]), if_neg (by norm_num [V3.ext_iff]), if_pos]
    left
    rw [len3_eq_zero.mpr rfl]; simp

/-- **C43 violated.** For these skew lines a point is returned all the same, and it is not on the
second line. -/
theorem C43_skew_point :
    let p0 : V3 ℝ := ⟨0, 0, 0⟩; let q0 : V3 ℝ := ⟨1, 0, 0⟩
    let p1 : V3 ℝ := ⟨0, 0, 1⟩; let q1 : V3 ℝ := ⟨0, 1, 1⟩
    (¬ ∃ X, OnLine p0 (vec3 p0 q0) X ∧ OnLine p1 (vec3 p1 q1) X) ∧
    ∃ X, lineIntersect3 p0 q0 p1 q1 = some X := by
  constructor
  · rintro ⟨X, ⟨s, hs⟩, ⟨t, ht⟩⟩
    rw [hs] at ht
    have := congrArg V3.z ht
    norm_num [along, vec3] at this
  · unfold lineIntersect3
    simp only [Bool.or_eq_true, allEq3_real, V3.norm_real, Num.eq_real, len3_eq_zero, Num.lit_real,
      Rat.cast_zero]
    rw [if_neg (by norm_num [V3.ext_iff]), if_neg (by norm_num [V3.ext_iff]),
      if_neg (by norm_num [V3.ext_iff, V3.cross, zero3])]
    exact ⟨_, rfl⟩

example : lineIntersect3 (⟨0, 0, 0⟩ : V3 ℝ) ⟨1, 0, 0⟩ ⟨3, 1, 0⟩ ⟨3, 2, 0⟩ = some ⟨3, 0, 0⟩ := by
  apply C43_meeting
  · intro h
    have := congrArg V3.z h
    norm_num [cross3, vec3, zero3] at this
  · exact ⟨3, by ext <;> simp [along, vec3]⟩
  · exact ⟨-1, by ext <;> norm_num [along, vec3]⟩
  · intro h
    have := congrArg V3.x h
    norm_num at this

end Blmath.Props
