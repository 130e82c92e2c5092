import Verif.Props.FloatRange
import Verif.Props.NotFinite

/-!
Property C123: `Polyline.partition_by_length` in doubles, for every limit: negative, zero of either sign, infinite, NaN, and
so small that a quotient overflows.
-/

namespace Blmath.Props
open Blmath.Geometry Blmath.Spec Blmath.Proofs Blmath.Vx

namespace PL

/-- neither negative nor NaN, and not a negative zero -/
def NN (x : F64) : Prop := (∃ q : ℚ, 0 < q ∧ x = .num q) ∨ x = .zero false ∨ x = .inf false

theorem rndQ_pos {q : ℚ} (h : 0 < q) : 0 < rndQ q := by
  have := rnd53_pos (show (0 : ℝ) < q by exact_mod_cast h)
  rw [rnd53_rat] at this
  exact_mod_cast this

theorem rndQ_neg (q : ℚ) : rndQ (-q) = -rndQ q := by
  have := rnd53_neg (q : ℝ)
  rw [show -(q : ℝ) = ((-q : ℚ) : ℝ) by push_cast; rfl, rnd53_rat, rnd53_rat] at this
  exact_mod_cast this

theorem nearestEvenQ_nonneg {q : ℚ} (h : 0 ≤ q) : 0 ≤ nearestEvenQ q := by
  have h0 : 0 ≤ ⌊q⌋ := Int.floor_nonneg.mpr h
  have h1 : 0 ≤ ⌊q + 1 / 2⌋ := Int.floor_nonneg.mpr (by linarith)
  unfold nearestEvenQ
  split_ifs <;> omega

theorem nearestEvenQ_nonpos {y : ℚ} (h : y ≤ 0) : nearestEvenQ y ≤ 0 := by
  have h4 : ⌊y⌋ ≤ 0 := by
    have : ((⌊y⌋ : ℤ) : ℚ) ≤ 0 := (Int.floor_le y).trans h
    exact_mod_cast this
  have h5 : ⌊y + 1 / 2⌋ ≤ 0 := by
    have : ⌊y + 1 / 2⌋ < 1 := Int.floor_lt.mpr (by push_cast; linarith)
    omega
  have h6 : Int.fract y = 1 / 2 → ⌊y⌋ ≤ -1 := by
    intro hf
    have := Int.self_sub_floor y
    rw [hf] at this
    have : ((⌊y⌋ : ℤ) : ℚ) < 0 := by linarith
    have : ⌊y⌋ < 0 := by exact_mod_cast this
    omega
  unfold nearestEvenQ
  split_ifs with a b
  · exact h4
  · have := h6 a; omega
  · exact h5

theorem round_nn {q : ℚ} (h : 0 ≤ q) : NN (F64.round q) := by
  unfold F64.round
  have hd : decide (q < 0) = false := by simp [h]
  rw [hd]
  split_ifs with h1 h2 h3
  · exact Or.inr (Or.inl rfl)
  · refine Or.inl ⟨_, ?_, rfl⟩
    have := nearestEvenQ_nonneg (q := q * 2 ^ 1074) (by positivity)
    have : (0 : ℚ) < nearestEvenQ (q * 2 ^ 1074) := by
      have : 0 < nearestEvenQ (q * 2 ^ 1074) := by omega
      exact_mod_cast this
    positivity
  · exact Or.inr (Or.inr rfl)
  · refine Or.inl ⟨_, ?_, rfl⟩
    rcases h.eq_or_lt with rfl | h
    · exact absurd (by simp) h1
    · exact rndQ_pos h

theorem round_ne_nan (q : ℚ) : F64.round q ≠ .nan := by
  unfold F64.round
  split_ifs <;> simp

theorem sub_ne_nan {a b : F64} (ha : a.val?.isSome) (hb : b.val?.isSome) : a - b ≠ .nan := by
  show F64.add a (F64.neg b) ≠ .nan
  cases a <;> cases b <;> simp_all [F64.val?, F64.neg, F64.add, round_ne_nan]

theorem sq_nn {a : F64} (ha : a ≠ .nan) : NN (a * a) := by
  show NN (F64.mul a a)
  cases a with
  | num q => exact round_nn (mul_self_nonneg q)
  | zero s => cases s <;> exact Or.inr (Or.inl rfl)
  | inf s => cases s <;> exact Or.inr (Or.inr rfl)
  | nan => exact absurd rfl ha

theorem add_nn {a b : F64} (ha : NN a) (hb : NN b) : NN (a + b) := by
  show NN (F64.add a b)
  rcases ha with ⟨q, hq, rfl⟩ | rfl | rfl <;> rcases hb with ⟨r, hr, rfl⟩ | rfl | rfl
  · exact round_nn (by positivity)
  · exact Or.inl ⟨q, hq, rfl⟩
  · exact Or.inr (Or.inr rfl)
  · exact Or.inl ⟨r, hr, rfl⟩
  · exact Or.inr (Or.inl rfl)
  · exact Or.inr (Or.inr rfl)
  · exact Or.inr (Or.inr rfl)
  · exact Or.inr (Or.inr rfl)
  · exact Or.inr (Or.inr rfl)

theorem sqrt_nn {a : F64} (ha : NN a) : NN (Num.sqrt a) := by
  show NN (F64.sqrt a)
  rcases ha with ⟨q, hq, rfl⟩ | rfl | rfl
  · refine Or.inl ⟨sqrtQ q, ?_, ?_⟩
    · have := rnd53_pos (Real.sqrt_pos.mpr (show (0 : ℝ) < q by exact_mod_cast hq))
      rw [rnd53_sqrt] at this
      exact_mod_cast this
    · simp [F64.sqrt, hq.le]
  · exact Or.inr (Or.inl rfl)
  · exact Or.inr (Or.inr rfl)

/-- all coordinates are finite -/
def Fin3 (p : V3 F64) : Prop := ∀ x ∈ p.toList, x.val?.isSome

theorem norm_nn {a b : V3 F64} (ha : Fin3 a) (hb : Fin3 b) : NN (V3.norm (b - a)) := by
  have h : ∀ x y : F64, x.val?.isSome → y.val?.isSome → NN ((x - y) * (x - y)) := fun x y hx hy => sq_nn (sub_ne_nan hx hy)
  have hx := h b.x a.x (hb _ (by simp [V3.toList])) (ha _ (by simp [V3.toList]))
  have hy := h b.y a.y (hb _ (by simp [V3.toList])) (ha _ (by simp [V3.toList]))
  have hz := h b.z a.z (hb _ (by simp [V3.toList])) (ha _ (by simp [V3.toList]))
  exact sqrt_nn (add_nn (add_nn hx hy) hz)

/-! ### the number of parts -/

theorem round_one : F64.round 1 = .num 1 := by
  have h : (F64.round 1).val? = some (rndQ 1) := round_val 1
    (Or.inl (by rw [Rat.cast_one, abs_one]; exact (div_le_one (by positivity)).mpr (one_le_pow₀ (by norm_num))))
    (by rw [Rat.cast_one, abs_one]; exact one_le_pow₀ (by norm_num))
  have h1 : rndQ 1 = 1 := by
    have := rnd53_grid 1 0 (by norm_num)
    rw [show ((1 : ℤ) : ℝ) * (2 : ℝ) ^ (0 : ℤ) = ((1 : ℚ) : ℝ) by norm_num, rnd53_rat] at this
    exact_mod_cast this
  rw [h1] at h
  cases hr : F64.round 1 with
  | num q => rw [hr] at h; simp only [F64.val?, Option.some.injEq] at h; rw [h]
  | zero s => rw [hr] at h; simp [F64.val?] at h
  | inf s => rw [hr] at h; simp [F64.val?] at h
  | nan => rw [hr] at h; simp [F64.val?] at h

theorem lit_one : (Num.lit 1 : F64) = .num 1 := round_one

theorem round_neg_le {q : ℚ} (h : q ≤ 0) : (∃ r : ℚ, r ≤ 0 ∧ F64.round q = .num r) ∨ (∃ s, F64.round q = .zero s) ∨
    F64.round q = .inf true := by
  rcases h.eq_or_lt with rfl | hlt
  · refine Or.inr (Or.inl ⟨false, ?_⟩)
    unfold F64.round
    rw [if_pos (by norm_num), if_pos]
    · simp
    · rw [zero_mul]; exact nearestEvenQ_int 0
  unfold F64.round
  have hd : decide (q < 0) = true := by simp [hlt]
  rw [hd]
  split_ifs with h1 h2 h3
  · exact Or.inr (Or.inl ⟨_, rfl⟩)
  · refine Or.inl ⟨_, ?_, rfl⟩
    have : nearestEvenQ (q * 2 ^ 1074) ≤ 0 :=
      nearestEvenQ_nonpos (mul_nonpos_of_nonpos_of_nonneg h (by positivity))
    have : (nearestEvenQ (q * 2 ^ 1074) : ℚ) ≤ 0 := by exact_mod_cast this
    exact div_nonpos_of_nonpos_of_nonneg this (by positivity)
  · exact Or.inr (Or.inr rfl)
  · refine Or.inl ⟨_, ?_, rfl⟩
    have := rndQ_pos (q := -q) (by linarith)
    rw [rndQ_neg] at this
    linarith

theorem le_one_of_neg {q : ℚ} (h : q ≤ 0) : Num.le (F64.round q) (Num.lit 1) = true := by
  rw [lit_one]
  show (F64.lt _ _ || F64.eq _ _) = true
  rcases round_neg_le h with ⟨r, hr, e⟩ | ⟨s, e⟩ | e <;> rw [e]
  · have : r < 1 := by linarith
    simp [F64.lt, F64.val?, this]
  · simp [F64.lt, F64.val?]
  · simp [F64.lt]

theorem ceil_num (q : ℚ) : Polyline.npCeil (F64.num q) = F64.round ⌈q⌉ := by
  unfold Polyline.npCeil
  rw [show Num.floor (-(F64.num q)) = some ⌊-q⌋ from rfl]
  show F64.round ((-⌊-q⌋ : ℤ) : ℚ) = _
  rw [Int.floor_neg, neg_neg]

theorem ceil_zero (s : Bool) : Polyline.npCeil (F64.zero s) = F64.round 0 := by
  unfold Polyline.npCeil
  rw [show Num.floor (-(F64.zero s)) = some ⌊(0 : ℚ)⌋ from rfl]
  show F64.round ((-⌊(0 : ℚ)⌋ : ℤ) : ℚ) = _
  simp

theorem ceil_inf (s : Bool) : Polyline.npCeil (F64.inf s) = .inf s := rfl

theorem ceil_nan : Polyline.npCeil F64.nan = .nan := rfl

theorem ceil_low {x : F64} (h : (∃ r : ℚ, r ≤ 0 ∧ x = .num r) ∨ (∃ s, x = .zero s) ∨ x = .inf true) :
    Num.le (Polyline.npCeil x) (Num.lit 1) = true := by
  rcases h with ⟨r, hr, rfl⟩ | ⟨s, rfl⟩ | rfl
  · rw [ceil_num]
    exact le_one_of_neg (by exact_mod_cast Int.ceil_le.mpr (by simpa using hr))
  · rw [ceil_zero]; exact le_one_of_neg le_rfl
  · rw [ceil_inf, lit_one]; rfl

theorem int_inf : Polyline.npInt (F64.inf false) = raise .OverflowError := rfl

theorem int_nan : Polyline.npInt F64.nan = raise .ValueError := rfl

/-! ### the loop -/

/-- the length of a segment, as computed -/
def size (s : V3 F64 × V3 F64) : F64 := V3.norm (s.2 - s.1)

/-- how many parts are asked for -/
def wanted (L : F64) (s : V3 F64 × V3 F64) : F64 := Polyline.npCeil (size s / L)

theorem loop_raise (v : List (V3 F64)) (x : V3 F64 × V3 F64 → F64) (s : V3 F64 × V3 F64) (err : PyErr)
    (h1 : Num.le (x s) (Num.lit 1) = false) (h2 : Polyline.npInt (x s) = .error err) (post : List (V3 F64 × V3 F64)) :
    ∀ (pre : List (V3 F64 × V3 F64)) (es : List (ℕ × ℕ)) (st : List ℕ × List (V3 F64)),
    List.Forall₂ (fun e s => Polyline.segmentOf v e = .ok s) es (pre ++ s :: post) →
    (∀ t ∈ pre, ∃ pts, FPa.Turn t (x t) pts) →
    Polyline.partitionLoop v (es.zip ((pre ++ s :: post).map x)) st = .error err
  | [], es, st, h, _ => by
    cases h with
    | cons a b =>
      simp only [List.nil_append, List.map_cons, List.zip_cons_cons, Polyline.partitionLoop, a, ok_bind, h1,
        Bool.false_eq_true, if_false, h2]
      rfl
  | t :: pre, es, st, h, ht => by
    rw [List.cons_append] at h
    cases h with
    | cons a b =>
      have ih := fun st => loop_raise v x s err h1 h2 post pre _ st b fun t ht' => ht t (by simp [ht'])
      simp only [List.cons_append, List.map_cons, List.zip_cons_cons, Polyline.partitionLoop, a, ok_bind]
      obtain ⟨pts, ⟨hle, _⟩ | ⟨hle, k, hk, hp⟩⟩ := ht t (by simp)
      · rw [if_pos hle]; exact ih _
      · rw [if_neg (by rw [hle]; simp), hk, ok_bind, hp, ok_bind]; exact ih _

theorem partition_raise (v : List (V3 F64)) (closed : Bool) (L : F64) (pre post : List (V3 F64 × V3 F64))
    (s : V3 F64 × V3 F64) (err : PyErr) (hs : chainSegs v closed = pre ++ s :: post)
    (h1 : Num.le (wanted L s) (Num.lit 1) = false) (h2 : Polyline.npInt (wanted L s) = .error err)
    (ht : ∀ t ∈ pre, ∃ pts, FPa.Turn t (wanted L t) pts) :
    (poly v closed).partitionByLength L = (poly v closed, .error err) := by
  have hseg : (poly v closed).segmentLengths = .ok ((chainSegs v closed).map size) := by
    unfold Polyline.segmentLengths
    rw [segments_eq]
    rfl
  have hloop := loop_raise v (wanted L) s err h1 h2 post pre _ ([], []) (hs ▸ FPa.segments_pairs v closed) ht
  unfold Polyline.partitionByLength
  have : (poly v closed).partitionVerts L = .error err := by
    unfold Polyline.partitionVerts
    rw [hseg, ok_bind]
    have hv' : (poly v closed).v.getD [] = v := rfl
    have he' : (poly v closed).e.getD [] = chainEdges v.length closed := rfl
    rw [hv', he']
    simp only [List.map_map]
    have e : ((fun l => Polyline.npCeil (l / L)) ∘ size) = wanted L := rfl
    rw [e, hs, hloop]
    rfl
  rw [this]

theorem whole_refine (v : List (V3 F64)) (closed : Bool) (hv : v ≠ []) :
    FPa.refine (fun s : V3 F64 × V3 F64 => [s.1]) v closed = v := by
  have e : (chainSegs v closed).flatMap (fun s : V3 F64 × V3 F64 => [s.1]) = (circuit v closed).dropLast := by
    rw [← pairs_fst, ← List.flatMap_pure_eq_map]
    rfl
  unfold FPa.refine
  rw [e]
  cases closed with
  | true => simp [circuit, List.head?_eq_some_head hv]
  | false => simp [circuit, List.getLast?_eq_some_getLast hv, List.dropLast_append_getLast hv]

theorem fin_ok {x : F64} (h : x.val?.isSome) : npIsNan x = false ∧ npIsInf x = false := by
  have ne : ∀ y : F64, y ≠ .nan → npIsNan y = false := by
    intro y hy
    show (!F64.eq y y) = false
    cases y <;> simp_all [F64.eq, F64.val?]
  refine ⟨ne x ?_, ?_⟩
  · rintro rfl; simp [F64.val?] at h
  · unfold npIsInf
    rw [ne _ (sub_ne_nan h h)]
    simp

theorem partition_same (v : List (V3 F64)) (closed : Bool) (hv : v ≠ []) (hf : ∀ p ∈ v, Fin3 p) (L : F64)
    (h : ∀ s ∈ chainSegs v closed, Num.le (wanted L s) (Num.lit 1) = true) :
    (poly v closed).partitionByLength L = (poly v closed, .ok (List.range v.length)) := by
  have := FPa.partition_any v closed hv L (fun s => [s.1]) (fun s hs => Or.inl ⟨h s hs, rfl⟩) (by simp) (by
    rw [whole_refine v closed hv]
    intro p hp x hx
    have := hf p hp x hx
    exact fin_ok this)
  rw [whole_refine v closed hv] at this
  rw [this, FPa.starts_eq]
  have hl := chainSegs_length v closed
  have hpos : 0 < v.length := List.length_pos_of_ne_nil hv
  have ht : ∀ i, (List.take i ((chainSegs v closed).map fun s => ([s.1] : List (V3 F64)).length)).sum =
      min i (chainSegs v closed).length := by
    intro i
    rw [← List.map_take]
    simp
  cases closed with
  | true =>
    rw [if_pos rfl] at hl
    simp only [List.length_map, hl, ht, if_true, List.append_nil, zero_add]
    congr 2
    conv_rhs => rw [← List.map_id (List.range v.length)]
    exact List.map_congr_left fun i hi => by simpa using (List.mem_range.mp hi).le
  | false =>
    rw [if_neg (by simp)] at hl
    simp only [List.length_map, hl, ht, zero_add, Bool.false_eq_true, if_false]
    congr 2
    have e : ((chainSegs v false).flatMap fun s => [s.1]).length = v.length - 1 := by simp [hl]
    rw [e]
    conv_rhs => rw [show v.length = v.length - 1 + 1 by omega, List.range_succ]
    congr 1
    conv_rhs => rw [← List.map_id (List.range (v.length - 1))]
    exact List.map_congr_left fun i hi => by simpa using (List.mem_range.mp hi).le

theorem seg_fin {v : List (V3 F64)} (hf : ∀ p ∈ v, Fin3 p) {closed : Bool} {s : V3 F64 × V3 F64}
    (hs : s ∈ chainSegs v closed) : NN (size s) := by
  have hc : ∀ p ∈ circuit v closed, p ∈ v := by
    intro p hp
    unfold circuit at hp
    rcases List.mem_append.mp hp with hp | hp
    · exact hp
    · cases closed with
      | false => simp at hp
      | true =>
        rw [if_pos rfl] at hp
        cases v with
        | nil => simp at hp
        | cons a r => simp only [List.head?_cons, Option.toList_some, List.mem_singleton] at hp; simp [hp]
  obtain ⟨h1, h2⟩ := FR.pairs_mem _ _ hs
  exact norm_nn (hf _ (hc _ h1)) (hf _ (hc _ h2))

/-! ### a positive limit -/

theorem rndQ_mono {a b : ℚ} (h : a ≤ b) : rndQ a ≤ rndQ b := by
  have := rnd53_mono (show (a : ℝ) ≤ b by exact_mod_cast h)
  rw [rnd53_rat, rnd53_rat] at this
  exact_mod_cast this

theorem rndQ_small (k : ℤ) (hk : |k| ≤ 2 ^ 53) : rndQ k = k := by
  have := rnd53_grid k 0 hk
  rw [show (k : ℝ) * (2 : ℝ) ^ (0 : ℤ) = ((k : ℚ) : ℝ) by push_cast; simp, rnd53_rat] at this
  exact_mod_cast this

theorem rndQ_idem (q : ℚ) : rndQ (rndQ q) = rndQ q := by
  have := rnd53_idem (q : ℝ)
  rw [rnd53_rat, rnd53_rat] at this
  exact_mod_cast this

theorem big_int {r : ℚ} (hr : 2 ^ 1023 ≤ r) (hs : rndQ r = r) : ∃ k : ℤ, r = k := by
  have h0 : 0 < r := lt_of_lt_of_le (by positivity) hr
  have hlog : (1023 : ℤ) ≤ Int.log 2 |r| := by
    rw [abs_of_pos h0]
    exact (Int.zpow_le_iff_le_log (by norm_num) h0).mp (by exact_mod_cast hr)
  unfold rndQ at hs
  rw [if_neg h0.ne'] at hs
  obtain ⟨n, hn⟩ := Int.eq_ofNat_of_zero_le (show 0 ≤ Int.log 2 |r| - 52 by omega)
  refine ⟨nearestEvenQ (r / ulpQ r) * 2 ^ n, ?_⟩
  conv_lhs => rw [← hs]
  push_cast
  congr 1
  unfold ulpQ
  rw [hn]
  simp

theorem ceil_val {z : ℚ} (hz : 0 ≤ z) (h : F64.round z ≠ .inf false) :
    ∃ w : ℚ, (Polyline.npCeil (F64.round z)).val? = some w ∧ (w ≤ 1 ∨ 2 ≤ w) := by
  rcases round_nn hz with ⟨r, hr, e⟩ | e | e
  · rw [e, ceil_num]
    have h1 : rndQ 1 = 1 := by simpa using rndQ_small 1 (by norm_num)
    have h2 : rndQ 2 = 2 := by simpa using rndQ_small 2 (by norm_num)
    by_cases hb : r ≤ 2 ^ 1023
    · refine ⟨rndQ ⌈r⌉, round_val _ (Or.inr ?_) ?_, ?_⟩
      · refine Mult.mono (e := 0) ⟨⌈r⌉, by push_cast; simp⟩ (by omega)
      · have : ⌈r⌉ ≤ 2 ^ 1023 := Int.ceil_le.mpr (by push_cast; exact hb)
        have h0 : 0 ≤ ⌈r⌉ := Int.ceil_nonneg hr.le
        push_cast
        rw [abs_of_nonneg (by exact_mod_cast h0)]
        exact_mod_cast this
      · rcases le_or_gt ⌈r⌉ 1 with hc | hc
        · left
          have : rndQ ⌈r⌉ ≤ rndQ 1 := rndQ_mono (by exact_mod_cast hc)
          rwa [h1] at this
        · right
          have : rndQ 2 ≤ rndQ ⌈r⌉ := rndQ_mono (by exact_mod_cast hc)
          rwa [h2] at this
    · rw [not_le] at hb
      have hbig : (1 : ℚ) / 2 ^ 1022 ≤ 1 := (div_le_one (by positivity)).mpr (one_le_pow₀ (by norm_num))
      have hone : (2 : ℚ) ≤ 2 ^ 1023 := le_self_pow₀ (by norm_num) (by norm_num)
      have key : rndQ z = r ∧ ¬ 2 ^ 1024 ≤ |rndQ z| := by
        unfold F64.round at e
        split_ifs at e with k1 k2 k3
        · exfalso
          simp only [F64.num.injEq] at e
          have hle : nearestEvenQ (z * 2 ^ 1074) ≤ 2 ^ 52 + 1 := by
            have hz2 : z * 2 ^ 1074 < 2 ^ 52 := by
              rw [abs_of_nonneg hz] at k1
              calc z * 2 ^ 1074 < 1 / 2 ^ 1022 * 2 ^ 1074 := mul_lt_mul_of_pos_right k1 (by positivity)
                _ = 2 ^ 52 := by
                  rw [show (2 : ℚ) ^ 1074 = 2 ^ 52 * 2 ^ 1022 by rw [← pow_add]]
                  rw [one_div, mul_comm, mul_assoc, mul_inv_cancel₀ (by positivity), mul_one]
            generalize z * 2 ^ 1074 = y at hz2
            have a1 : ⌊y⌋ < 2 ^ 52 := Int.floor_lt.mpr (by push_cast; exact hz2)
            have a2 : ⌊y + 1 / 2⌋ < 2 ^ 52 + 1 := Int.floor_lt.mpr (by push_cast; linarith)
            unfold nearestEvenQ
            split_ifs <;> omega
          have hle' : (nearestEvenQ (z * 2 ^ 1074) : ℚ) ≤ 2 ^ 52 + 1 := by exact_mod_cast hle
          have : r ≤ 2 ^ 52 + 1 := by
            rw [← e]
            refine le_trans (div_le_self (by have := nearestEvenQ_nonneg (q := z * 2 ^ 1074) (by positivity); exact_mod_cast this)
              (one_le_pow₀ (by norm_num))) hle'
          have h53 : (2 : ℚ) ^ 52 + 1 ≤ 2 ^ 53 := by norm_num
          have h54 : (2 : ℚ) ^ 53 ≤ 2 ^ 1023 := pow_le_pow_right₀ (by norm_num) (by norm_num)
          exact absurd (this.trans (h53.trans h54)) (not_le.mpr hb)
        · simp only [F64.num.injEq] at e
          exact ⟨e, k3⟩
      obtain ⟨k1, k2⟩ := key
      have hs : rndQ r = r := by rw [← k1, rndQ_idem]
      obtain ⟨k, hk⟩ := big_int hb.le hs
      have hcr : ((⌈r⌉ : ℤ) : ℚ) = r := by rw [hk, Int.ceil_intCast]
      refine ⟨r, ?_, Or.inr (hone.trans hb.le)⟩
      rw [hcr]
      unfold F64.round
      rw [if_neg, if_neg, hs]
      · rfl
      · rw [hs, ← k1]; exact k2
      · rw [abs_of_pos hr, not_lt]
        exact hbig.trans ((show (1 : ℚ) ≤ 2 by norm_num).trans (hone.trans hb.le))
  · rw [e, ceil_zero]
    refine ⟨0, ?_, by norm_num⟩
    have := round_val 0 (Or.inr (by simpa using Mult.zero 1074)) (by simp)
    rw [this, rndQ_zero]
  · exact absurd e h

theorem turn_val (s : V3 F64 × V3 F64) {y : F64} {w : ℚ} (hy : y.val? = some w) (hw : w ≤ 1 ∨ 2 ≤ w) :
    ∃ pts, pts ≠ [] ∧ FPa.Turn s y pts := by
  have hle : Num.le y (Num.lit 1) = decide (w ≤ 1) := by
    rw [lit_one]
    show (F64.lt _ _ || F64.eq _ _) = _
    cases y with
    | num q =>
      simp only [F64.val?, Option.some.injEq] at hy
      subst hy
      show (decide (q < 1) || decide (q = 1)) = _
      rcases lt_trichotomy q 1 with h | h | h
      · simp [h, h.le]
      · simp [h]
      · simp [not_le.mpr h, not_lt.mpr h.le, h.ne']
    | zero s =>
      simp only [F64.val?, Option.some.injEq] at hy
      subst hy
      simp [F64.lt, F64.eq, F64.val?]
    | inf s => simp [F64.val?] at hy
    | nan => simp [F64.val?] at hy
  rcases hw with hw | hw
  · exact ⟨[s.1], by simp, Or.inl ⟨by rw [hle]; simpa using hw, rfl⟩⟩
  · have h1 : ¬ w ≤ 1 := by linarith
    have h2 : 2 ≤ ⌊w⌋ := Int.le_floor.mpr (by exact_mod_cast hw)
    refine ⟨(linspace01 ⌊w⌋.toNat false).map fun t => V3.smul t (s.2 - s.1) + s.1, ?_, Or.inr ⟨by rw [hle]; simpa using h1, ⌊w⌋, ?_, ?_⟩⟩
    · intro h
      have := congrArg List.length h
      simp only [List.length_map, linspace01, List.length_range, List.length_nil] at this
      omega
    · unfold Polyline.npInt
      have : Num.floor y = some ⌊w⌋ := by
        show y.val?.map _ = _
        rw [hy]; rfl
      rw [this]
    · unfold partitionSegment
      simp only
      rw [if_neg (by omega)]
      rfl

theorem turn_pos (s : V3 F64 × V3 F64) (hs : NN (size s)) {q : ℚ} (hq : 0 < q) (h : size s / F64.num q ≠ .inf false) :
    ∃ pts, pts ≠ [] ∧ FPa.Turn s (wanted (.num q) s) pts := by
  unfold wanted
  rcases hs with ⟨r, hr, e⟩ | e | e
  · rw [e] at h ⊢
    obtain ⟨w, h1, h2⟩ := ceil_val (z := r / q) (by positivity) h
    exact turn_val s h1 h2
  · rw [e]
    have : F64.zero false / F64.num q = F64.zero false := by
      show F64.zero (false ^^ decide (q < 0)) = _
      simp [hq.le]
    rw [this, ceil_zero]
    refine turn_val s (w := 0) ?_ (by norm_num)
    have := round_val 0 (Or.inr (by simpa using Mult.zero 1074)) (by simp)
    rw [this, rndQ_zero]
  · exfalso
    rw [e] at h
    apply h
    show F64.inf (false ^^ decide (q < 0)) = _
    simp [hq.le]

theorem first_split {β : Type} (P : β → Prop) : ∀ l : List β, (∃ s ∈ l, P s) →
    ∃ pre s post, l = pre ++ s :: post ∧ P s ∧ ∀ t ∈ pre, ¬ P t
  | [], h => by simp at h
  | a :: l, h => by
    by_cases ha : P a
    · exact ⟨[], a, l, rfl, ha, by simp⟩
    · obtain ⟨pre, s, post, e, h1, h2⟩ := first_split P l (by
        obtain ⟨s, hs, hp⟩ := h
        rcases List.mem_cons.mp hs with rfl | hs
        · exact absurd hp ha
        · exact ⟨s, hs, hp⟩)
      refine ⟨a :: pre, s, post, by rw [e]; rfl, h1, ?_⟩
      intro t ht
      rcases List.mem_cons.mp ht with rfl | ht
      · exact ha
      · exact h2 t ht

theorem le_nan : Num.le F64.nan (Num.lit 1) = false := rfl

theorem le_inf : Num.le (F64.inf false) (Num.lit 1) = false := by rw [lit_one]; rfl

theorem raise_at (v : List (V3 F64)) (closed : Bool) (L : F64) (y : F64) (err : PyErr)
    (hy : Num.le y (Num.lit 1) = false) (hi : Polyline.npInt y = .error err)
    (h : ∃ s ∈ chainSegs v closed, wanted L s = y)
    (ht : ∀ s ∈ chainSegs v closed, wanted L s ≠ y → ∃ pts, FPa.Turn s (wanted L s) pts) :
    (poly v closed).partitionByLength L = (poly v closed, .error err) := by
  obtain ⟨pre, s, post, e, h1, h2⟩ := first_split _ _ h
  exact partition_raise v closed L pre post s err e (by rw [h1]; exact hy) (by rw [h1]; exact hi)
    fun t htp => ht t (by rw [e]; simp [htp]) (h2 t htp)

theorem turn_low {s : V3 F64 × V3 F64} {x : F64} (h : Num.le x (Num.lit 1) = true) : ∃ pts, FPa.Turn s x pts :=
  ⟨_, Or.inl ⟨h, rfl⟩⟩

theorem verts_any (v : List (V3 F64)) (closed : Bool) (hv : v ≠ []) (L : F64) (pts : V3 F64 × V3 F64 → List (V3 F64))
    (ht : ∀ s ∈ chainSegs v closed, FPa.Turn s (wanted L s) (pts s)) :
    (poly v closed).partitionVerts L = .ok (FPa.starts 0 ((chainSegs v closed).map fun s => (pts s).length) ++
        (if closed then [] else [((chainSegs v closed).flatMap pts).length]), FPa.refine pts v closed) := by
  have hloop := FPa.loop_any v (wanted L) pts _ _ [] [] (FPa.segments_pairs v closed) ht
  have hseg : (poly v closed).segmentLengths = .ok ((chainSegs v closed).map size) := by
    unfold Polyline.segmentLengths
    rw [segments_eq]
    rfl
  unfold Polyline.partitionVerts
  rw [hseg, ok_bind]
  have hv' : (poly v closed).v.getD [] = v := rfl
  have he' : (poly v closed).e.getD [] = chainEdges v.length closed := rfl
  rw [hv', he']
  simp only [List.map_map]
  have e : ((fun l => Polyline.npCeil (l / L)) ∘ size) = wanted L := rfl
  rw [e, hloop, ok_bind]
  cases closed with
  | true => simp [poly, FPa.refine]
  | false =>
    have hlast : pyIndex v (-1) = .ok (v.getLast hv) := by
      conv_lhs => rw [← List.dropLast_append_getLast hv]
      exact pyIndex_concat _ _
    simp [poly, FPa.refine, Polyline.vArr, hlast, List.getLast?_eq_some_getLast hv]

end PL
open PL

section
variable (v : List (V3 F64)) (closed : Bool) (hv : v ≠ []) (hf : ∀ p ∈ v, ∀ x ∈ p.toList, x.val?.isSome)
include hv hf

/-- **C123.** A negative limit: nothing happens, whatever the segments; the indices are those of the vertices. -/
theorem C123_negative (q : ℚ) (hq : q < 0) :
    (poly v closed).partitionByLength (.num q) = (poly v closed, .ok (List.range v.length)) := by
  refine partition_same v closed hv hf _ fun s hs => ceil_low ?_
  rcases seg_fin hf hs with ⟨r, hr, e⟩ | e | e <;> rw [e]
  · exact round_neg_le (div_nonpos_of_nonneg_of_nonpos hr.le hq.le)
  · exact Or.inr (Or.inl ⟨_, rfl⟩)
  · refine Or.inr (Or.inr ?_)
    show F64.inf (false ^^ decide (q < 0)) = _
    simp [hq]

/-- **C123.** The limit zero: the call raises if there is any segment; ValueError if the computed length of the first
segment is zero (0/0), OverflowError otherwise. The polyline is left as it was. -/
theorem C123_zero :
    (∀ s rest, chainSegs v closed = s :: rest →
      (V3.norm (s.2 - s.1) = .zero false →
        (poly v closed).partitionByLength (.zero false) = (poly v closed, raise .ValueError)) ∧
      (V3.norm (s.2 - s.1) ≠ .zero false →
        (poly v closed).partitionByLength (.zero false) = (poly v closed, raise .OverflowError))) ∧
    (chainSegs v closed = [] →
      (poly v closed).partitionByLength (.zero false) = (poly v closed, .ok (List.range v.length))) := by
  refine ⟨fun s rest hs => ⟨fun h => ?_, fun h => ?_⟩, fun h => ?_⟩
  · have e : wanted (.zero false) s = .nan := by
      unfold wanted
      rw [show size s = _ from h]
      rfl
    exact partition_raise v closed _ [] rest s _ hs (by rw [e]; exact le_nan) (by rw [e]; exact int_nan) (by simp)
  · have e : wanted (.zero false) s = .inf false := by
      unfold wanted
      rcases seg_fin hf (show s ∈ chainSegs v closed by rw [hs]; simp) with ⟨r, hr, e⟩ | e | e
      · rw [e]
        show Polyline.npCeil (F64.inf (decide (r < 0) ^^ false)) = _
        simp [hr.le, ceil_inf]
      · exact absurd e h
      · rw [e]; rfl
    exact partition_raise v closed _ [] rest s _ hs (by rw [e]; exact le_inf) (by rw [e]; exact int_inf) (by simp)
  · exact partition_same v closed hv hf _ fun s hs => by rw [h] at hs; simp at hs

/-- **C123.** The limit `-0.0` differs: nothing happens, unless the computed length of some segment is zero, which raises
ValueError. -/
theorem C123_minus_zero :
    ((∃ s ∈ chainSegs v closed, V3.norm (s.2 - s.1) = .zero false) →
      (poly v closed).partitionByLength (.zero true) = (poly v closed, raise .ValueError)) ∧
    ((∀ s ∈ chainSegs v closed, V3.norm (s.2 - s.1) ≠ .zero false) →
      (poly v closed).partitionByLength (.zero true) = (poly v closed, .ok (List.range v.length))) := by
  have key : ∀ s ∈ chainSegs v closed, V3.norm (s.2 - s.1) ≠ .zero false →
      Num.le (wanted (.zero true) s) (Num.lit 1) = true := by
    intro s hs h
    refine ceil_low (Or.inr (Or.inr ?_))
    rcases seg_fin hf hs with ⟨r, hr, e⟩ | e | e
    · rw [e]
      show F64.inf (decide (r < 0) ^^ true) = _
      simp [hr.le]
    · exact absurd e h
    · rw [e]; rfl
  have key2 : ∀ s, V3.norm (s.2 - s.1) = .zero false → wanted (.zero true) s = .nan := by
    intro s h
    unfold wanted
    rw [show size s = _ from h]
    rfl
  refine ⟨fun ⟨s, hs, h⟩ => ?_, fun h => partition_same v closed hv hf _ fun s hs => key s hs (h s hs)⟩
  exact raise_at v closed _ .nan _ le_nan int_nan ⟨s, hs, key2 s h⟩ fun t ht h' => turn_low (key t ht fun h0 => h' (key2 t h0))

/-- **C123.** An infinite limit of either sign: nothing happens, unless the computed length of some segment is infinite,
which raises ValueError. -/
theorem C123_infinite (neg : Bool) :
    ((∃ s ∈ chainSegs v closed, V3.norm (s.2 - s.1) = .inf false) →
      (poly v closed).partitionByLength (.inf neg) = (poly v closed, raise .ValueError)) ∧
    ((∀ s ∈ chainSegs v closed, V3.norm (s.2 - s.1) ≠ .inf false) →
      (poly v closed).partitionByLength (.inf neg) = (poly v closed, .ok (List.range v.length))) := by
  have key : ∀ s ∈ chainSegs v closed, V3.norm (s.2 - s.1) ≠ .inf false →
      Num.le (wanted (.inf neg) s) (Num.lit 1) = true := by
    intro s hs h
    refine ceil_low (Or.inr (Or.inl ?_))
    rcases seg_fin hf hs with ⟨r, hr, e⟩ | e | e
    · rw [e]; exact ⟨_, rfl⟩
    · rw [e]; exact ⟨_, rfl⟩
    · exact absurd e h
  have key2 : ∀ s, V3.norm (s.2 - s.1) = .inf false → wanted (.inf neg) s = .nan := by
    intro s h
    unfold wanted
    rw [show size s = _ from h]
    rfl
  refine ⟨fun ⟨s, hs, h⟩ => ?_, fun h => partition_same v closed hv hf _ fun s hs => key s hs (h s hs)⟩
  exact raise_at v closed _ .nan _ le_nan int_nan ⟨s, hs, key2 s h⟩ fun t ht h' => turn_low (key t ht fun h0 => h' (key2 t h0))

/-- **C123.** The limit NaN: the call raises ValueError if there is any segment, and leaves the polyline as it was. -/
theorem C123_nan :
    (chainSegs v closed ≠ [] →
      (poly v closed).partitionByLength .nan = (poly v closed, raise .ValueError)) ∧
    (chainSegs v closed = [] →
      (poly v closed).partitionByLength .nan = (poly v closed, .ok (List.range v.length))) := by
  have key : ∀ s : V3 F64 × V3 F64, wanted .nan s = .nan := by
    intro s
    unfold wanted
    cases size s <;> rfl
  refine ⟨fun h => ?_, fun h => partition_same v closed hv hf _ fun s hs => by rw [h] at hs; simp at hs⟩
  obtain ⟨s, hs⟩ := List.exists_mem_of_ne_nil _ h
  exact raise_at v closed _ .nan _ le_nan int_nan ⟨s, hs, key s⟩ fun t _ h' => absurd (key t) h'

/-- **C123.** A positive limit: if for some segment the quotient of computed length and limit is infinite the call raises
OverflowError. Otherwise it returns, except that it raises ValueError if a new vertex is not finite. Whenever it raises
the polyline is left as it was. -/
theorem C123_positive (q : ℚ) (hq : 0 < q) :
    ((∃ s ∈ chainSegs v closed, V3.norm (s.2 - s.1) / F64.num q = .inf false) →
      (poly v closed).partitionByLength (.num q) = (poly v closed, raise .OverflowError)) ∧
    ((∀ s ∈ chainSegs v closed, V3.norm (s.2 - s.1) / F64.num q ≠ .inf false) →
      (∃ w inds, (poly v closed).partitionByLength (.num q) = (poly w closed, .ok inds)) ∨
      (poly v closed).partitionByLength (.num q) = (poly v closed, raise .ValueError)) := by
  have hnn := fun s hs => seg_fin hf (closed := closed) (s := s) hs
  constructor
  · rintro ⟨s, hs, h⟩
    refine raise_at v closed _ (.inf false) _ le_inf int_inf ⟨s, hs, ?_⟩ fun t ht h' => ?_
    · unfold wanted size
      rw [h]; rfl
    · obtain ⟨pts, -, h2⟩ := turn_pos t (hnn t ht) hq fun h0 => h' (by unfold wanted; rw [h0]; rfl)
      exact ⟨pts, h2⟩
  · intro h
    have hex : ∀ s, ∃ pts, s ∈ chainSegs v closed → pts ≠ [] ∧ FPa.Turn s (wanted (.num q) s) pts := by
      intro s
      by_cases hs : s ∈ chainSegs v closed
      · obtain ⟨pts, h1⟩ := turn_pos s (hnn s hs) hq (h s hs)
        exact ⟨pts, fun _ => h1⟩
      · exact ⟨[], fun h => absurd h hs⟩
    choose pts hpts using hex
    by_cases hfin : ∀ p ∈ FPa.refine pts v closed, ∀ x ∈ p.toList, npIsNan x = false ∧ npIsInf x = false
    · exact Or.inl ⟨_, _, FPa.partition_any v closed hv _ pts (fun s hs => (hpts s hs).2) (fun s hs => (hpts s hs).1) hfin⟩
    · right
      unfold Polyline.partitionByLength
      rw [verts_any v closed hv _ pts fun s hs => (hpts s hs).2]
      have hset : (poly v closed).setV (rowsOf (FPa.refine pts v closed)) = (poly v closed, raise .ValueError) := by
        have : asPoints (rowsOf (FPa.refine pts v closed)) = raise .ValueError := by
          unfold asPoints rowsOf
          simp only
          rw [if_pos]
          push Not at hfin
          obtain ⟨p, hp, x, hx, h0⟩ := hfin
          rw [List.any_eq_true]
          refine ⟨p.toList, List.mem_map_of_mem hp, ?_⟩
          rw [List.any_eq_true]
          refine ⟨x, hx, ?_⟩
          cases hn : npIsNan x with
          | true => rfl
          | false => simpa using h0 hn
        unfold Polyline.setV
        rw [this]
      simp only
      rw [hset]
end

/-- from the origin along the x axis -/
def xSeg (q : ℚ) : List (V3 F64) := [⟨.zero false, .zero false, .zero false⟩, ⟨.num q, .zero false, .zero false⟩]

theorem PL.xSeg_ok (q : ℚ) : xSeg q ≠ [] ∧ ∀ p ∈ xSeg q, ∀ x ∈ p.toList, x.val?.isSome := by
  refine ⟨by simp [xSeg], ?_⟩
  simp [xSeg, V3.toList, F64.val?]

/-- **C123.** Finding: a segment of length 2^600 and the limit 2^600: OverflowError, though nothing has to be divided, because the
square of the length is not a double. -/
theorem C123_long : (poly (xSeg (2 ^ 600)) false).partitionByLength (.num (2 ^ 600)) =
    (poly (xSeg (2 ^ 600)) false, raise .OverflowError) := by
  refine (C123_positive _ _ (PL.xSeg_ok _).1 (PL.xSeg_ok _).2 _ (by positivity)).1 ⟨_, List.mem_cons_self, ?_⟩
  decide +kernel

/-- **C123.** Finding: a segment of length 2^-600 is left whole with the limit 2^-700, because the square of its length is
rounded to zero. -/
theorem C123_short : (poly (xSeg (1 / 2 ^ 600)) false).partitionByLength (.num (1 / 2 ^ 700)) =
    (poly (xSeg (1 / 2 ^ 600)) false, .ok [0, 1]) := by
  refine PL.partition_same _ _ (PL.xSeg_ok _).1 (PL.xSeg_ok _).2 _ fun s hs => ?_
  rw [List.mem_singleton.mp (show s ∈ [_] from hs)]
  decide +kernel

/-- a segment of length one, with a limit of each kind -/
theorem PL.unit_limits :
    (poly (xSeg 1) false).partitionByLength (.zero false) = (poly (xSeg 1) false, raise .OverflowError) ∧
    (poly (xSeg 1) false).partitionByLength (.zero true) = (poly (xSeg 1) false, .ok [0, 1]) ∧
    (poly (xSeg 1) false).partitionByLength (.inf false) = (poly (xSeg 1) false, .ok [0, 1]) ∧
    (poly (xSeg 1) false).partitionByLength .nan = (poly (xSeg 1) false, raise .ValueError) ∧
    (poly (xSeg 1) false).partitionByLength (.num (1 / 2 ^ 1074)) = (poly (xSeg 1) false, raise .OverflowError) := by
  obtain ⟨h1, h2⟩ := PL.xSeg_ok 1
  have hs : ∀ s ∈ chainSegs (xSeg 1) false, V3.norm (s.2 - s.1) = F64.num 1 := by
    intro s hs
    rw [List.mem_singleton.mp (show s ∈ [_] from hs)]
    decide +kernel
  refine ⟨((C123_zero _ _ h1 h2).1 _ _ rfl).2 ?_, (C123_minus_zero _ _ h1 h2).2 ?_, (C123_infinite _ _ h1 h2 _).2 ?_,
    (C123_nan _ _ h1 h2).1 (by simp [chainSegs, xSeg, circuit, pairs]),
    (C123_positive _ _ h1 h2 _ (by positivity)).1 ⟨_, List.mem_cons_self, ?_⟩⟩
  · rw [hs _ List.mem_cons_self]; simp
  · intro s h; rw [hs s h]; simp
  · intro s h; rw [hs s h]; simp
  · rw [hs _ List.mem_cons_self]; decide +kernel

end Blmath.Props
