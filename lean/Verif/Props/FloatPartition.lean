import Verif.Props.FloatSlice
import Verif.Props.FloatMeasures
import Verif.Props.Polyline
import Verif.Proofs.RoundEval

/-!
Property C105: `Polyline.partition_by_length` in rounded arithmetic.
-/

namespace Blmath.Props
open Blmath.Geometry Blmath.Spec Blmath.Proofs Blmath.Vx FS

namespace FPa
variable {rnd : ℝ → ℝ} {u : ℝ}

/-! ### the loop, for any arithmetic -/

section
variable {α : Type} [Num α]

/-- positions at which stretches of the given lengths begin -/
def starts : ℕ → List ℕ → List ℕ
  | _, [] => []
  | k, n :: ns => k :: starts (k + n) ns

/-- what one turn of the loop appends for the segment `s` with the number `x` -/
def Turn (s : V3 α × V3 α) (x : α) (pts : List (V3 α)) : Prop :=
  (Num.le x (Num.lit 1) = true ∧ pts = [s.1]) ∨
  (Num.le x (Num.lit 1) = false ∧ ∃ k, Polyline.npInt x = .ok k ∧ partitionSegment (α := α) s.1 s.2 (some k) false = .ok pts)

theorem loop_any (v : List (V3 α)) (x : V3 α × V3 α → α) (pts : V3 α × V3 α → List (V3 α)) :
    ∀ (es : List (ℕ × ℕ)) (ss : List (V3 α × V3 α)) (ind : List ℕ) (nv : List (V3 α)),
    List.Forall₂ (fun e s => Polyline.segmentOf v e = .ok s) es ss → (∀ s ∈ ss, Turn s (x s) (pts s)) →
    Polyline.partitionLoop v (es.zip (ss.map x)) (ind, nv) =
      .ok (ind ++ starts nv.length (ss.map fun s => (pts s).length), nv ++ ss.flatMap pts)
  | [], ss, ind, nv, h, _ => by
    cases h
    simp [Polyline.partitionLoop, starts]
  | e :: es, ss, ind, nv, h, ht => by
    cases h with
    | cons h1 h2 =>
      rename_i s ss
      have ih := loop_any v x pts es ss
      simp only [List.map_cons, List.zip_cons_cons, Polyline.partitionLoop, h1, ok_bind]
      rcases ht s (by simp) with ⟨hle, hp⟩ | ⟨hle, k, hk, hp⟩
      · rw [if_pos hle, ih _ _ h2 (fun s hs => ht s (by simp [hs]))]
        simp [starts, hp]
      · rw [if_neg (by rw [hle]; simp), hk, ok_bind, hp, ok_bind, ih _ _ h2 (fun s hs => ht s (by simp [hs]))]
        simp [starts]

theorem segments_pairs (v : List (V3 α)) (closed : Bool) :
    List.Forall₂ (fun e s => Polyline.segmentOf v e = .ok s) (chainEdges v.length closed) (chainSegs v closed) := by
  rw [List.forall₂_iff_get]
  refine ⟨by rw [chainEdges_length, chainSegs_length], ?_⟩
  intro i h1 h2
  obtain ⟨a, b, e1, e2, e3, e4⟩ := circuit_getElem? v closed _ (List.getElem_mem h1)
  have hs := pairs_getElem? _ _ _ _ e3 e4
  rw [chainEdges_getElem i h1] at hs
  have hs' : (chainSegs v closed)[i]? = some (a, b) := hs
  rw [List.getElem?_eq_getElem h2] at hs'
  injection hs' with hs'
  simp only [List.get_eq_getElem]
  rw [hs']
  unfold Polyline.segmentOf
  rw [pyIndex_of_getElem? e1, pyIndex_of_getElem? e2]
  rfl

/-- the vertices when every segment is replaced by points -/
def refine (pts : V3 α × V3 α → List (V3 α)) (v : List (V3 α)) (closed : Bool) : List (V3 α) :=
  (chainSegs v closed).flatMap pts ++ if closed then [] else v.getLast?.toList

theorem partition_any (v : List (V3 α)) (closed : Bool) (hv : v ≠ []) (L : α) (pts : V3 α × V3 α → List (V3 α))
    (ht : ∀ s ∈ chainSegs v closed, Turn s (Polyline.npCeil (V3.norm (s.2 - s.1) / L)) (pts s))
    (hne : ∀ s ∈ chainSegs v closed, pts s ≠ [])
    (hfin : ∀ p ∈ refine pts v closed, ∀ x ∈ p.toList, npIsNan x = false ∧ npIsInf x = false) :
    (poly v closed).partitionByLength L = (poly (refine pts v closed) closed,
      .ok (starts 0 ((chainSegs v closed).map fun s => (pts s).length) ++
        if closed then [] else [((chainSegs v closed).flatMap pts).length])) := by
  have hloop := loop_any v (fun s => Polyline.npCeil (V3.norm (s.2 - s.1) / L)) pts _ _ [] [] (segments_pairs v closed) ht
  have hset : (poly v closed).setV (rowsOf (refine pts v closed)) = (poly (refine pts v closed) closed, .ok ()) := by
    refine setV_ok (poly v closed) _ _ (asPoints_rowsOf _ hfin) (fun hc => ?_)
    have hc : closed = true := hc
    subst hc
    have hl := chainSegs_length v true
    rw [if_pos rfl] at hl
    have : 0 < v.length := List.length_pos_of_ne_nil hv
    obtain ⟨s, hs⟩ := List.exists_mem_of_length_pos (show 0 < (chainSegs v true).length by omega)
    obtain ⟨p, hp⟩ := List.exists_mem_of_ne_nil _ (hne s hs)
    intro h0
    have : p ∈ refine pts v true := by simp only [refine, List.mem_append, List.mem_flatMap]; exact Or.inl ⟨s, hs, hp⟩
    rw [h0] at this
    simp at this
  have hseg : (poly v closed).segmentLengths = .ok ((chainSegs v closed).map fun s => V3.norm (s.2 - s.1)) := by
    unfold Polyline.segmentLengths
    rw [segments_eq]
    rfl
  unfold Polyline.partitionByLength
  have hcomp : (poly v closed).partitionVerts L = .ok (starts 0 ((chainSegs v closed).map fun s => (pts s).length) ++
        (if closed then [] else [((chainSegs v closed).flatMap pts).length]), refine pts v closed) := by
    unfold Polyline.partitionVerts
    rw [hseg, ok_bind]
    have hv' : (poly v closed).v.getD [] = v := rfl
    have he' : (poly v closed).e.getD [] = chainEdges v.length closed := rfl
    rw [hv', he']
    simp only [List.map_map]
    have e : ((fun l => Polyline.npCeil (l / L)) ∘ fun s : V3 α × V3 α => V3.norm (s.2 - s.1)) =
      fun s => Polyline.npCeil (V3.norm (s.2 - s.1) / L) := rfl
    rw [e, hloop, ok_bind]
    cases closed with
    | true => simp [poly, refine]
    | false =>
      have hlast : pyIndex v (-1) = .ok (v.getLast hv) := by
        conv_lhs => rw [← List.dropLast_append_getLast hv]
        exact pyIndex_concat _ _
      simp [poly, refine, Polyline.vArr, hlast, List.getLast?_eq_some_getLast hv]
  rw [hcomp]
  simp only
  rw [hset]
end

/-! ### positions and segments of the refined chain -/

section
variable {P : Type}

theorem starts_eq : ∀ (ns : List ℕ) (k : ℕ), starts k ns = (List.range ns.length).map fun i => k + (ns.take i).sum
  | [], _ => rfl
  | n :: ns, k => by
    rw [starts, starts_eq ns (k + n), List.length_cons, List.range_succ_eq_map]
    simp [Function.comp_def, add_assoc]

theorem flatMap_get {Q : Type} (f : Q → List P) : ∀ (ss : List Q) (i : ℕ) (s : Q) (j : ℕ), ss[i]? = some s → j < (f s).length →
    (ss.flatMap f)[((ss.map fun s => (f s).length).take i).sum + j]? = (f s)[j]?
  | [], i, s, j, h, _ => by simp at h
  | t :: ss, 0, s, j, h, hj => by
    simp only [List.getElem?_cons_zero, Option.some.injEq] at h
    subst h
    simp [List.getElem?_append_left hj]
  | t :: ss, i + 1, s, j, h, hj => by
    simp only [List.getElem?_cons_succ] at h
    have ih := flatMap_get f ss i s j h hj
    simp only [List.map_cons, List.take_succ_cons, List.sum_cons, List.flatMap_cons]
    rw [List.getElem?_append_right (by omega), ← ih]
    congr 1
    omega

theorem flatMap_len {Q : Type} (f : Q → List P) (ss : List Q) : (ss.flatMap f).length = (ss.map fun s => (f s).length).sum := by
  simp [List.length_flatMap]

/-- the pairs of neighbours when points are put between those of a chain -/
theorem pairs_fill (f : P × P → List P) : ∀ (w : List P) (b : P), w.getLast? = some b → (∀ s ∈ pairs w, (f s).head? = some s.1) →
    ((pairs w).flatMap f ++ [b]).head? = w.head? ∧
    pairs ((pairs w).flatMap f ++ [b]) = (pairs w).flatMap fun s => pairs (f s ++ [s.2])
  | [], _, h, _ => by simp at h
  | [x], b, h, _ => by
    simp at h
    subst h
    simp [pairs]
  | x :: y :: r, b, h, hf => by
    have hb : (y :: r).getLast? = some b := by simpa using h
    obtain ⟨i1, i2⟩ := pairs_fill f (y :: r) b hb (fun s hs => hf s (by simp [pairs, hs]))
    have h0 := hf (x, y) (by simp [pairs])
    obtain ⟨t, ht⟩ : ∃ t, (pairs (y :: r)).flatMap f ++ [b] = y :: t := by
      cases hc : (pairs (y :: r)).flatMap f ++ [b] with
      | nil => simp at hc
      | cons c t => rw [hc] at i1; simp at i1; exact ⟨t, by rw [i1]⟩
    rw [ht] at i2
    simp only [pairs, List.flatMap_cons, List.append_assoc]
    rw [ht]
    refine ⟨?_, ?_⟩
    · rw [List.head?_append, h0]; rfl
    · rw [pairs_append_cons, i2]

theorem pairs_get : ∀ (v : List P) (j : ℕ) (s : P × P), (pairs v)[j]? = some s → v[j]? = some s.1 ∧ v[j + 1]? = some s.2
  | [], _, _, h => by simp [pairs] at h
  | [_], _, _, h => by simp [pairs] at h
  | a :: b :: r, 0, s, h => by simp [pairs] at h; subst h; simp
  | a :: b :: r, j + 1, s, h => by
    simp only [pairs, List.getElem?_cons_succ] at h
    obtain ⟨h1, h2⟩ := pairs_get (b :: r) j s h
    simp only [List.getElem?_cons_succ] at h1 h2 ⊢
    exact ⟨h1, h2⟩
end

section
variable {α : Type} [Num α]

theorem refine_segs (pts : V3 α × V3 α → List (V3 α)) (v : List (V3 α)) (closed : Bool) (hv : v ≠ [])
    (hf : ∀ s ∈ chainSegs v closed, (pts s).head? = some s.1) :
    chainSegs (refine pts v closed) closed = (chainSegs v closed).flatMap fun s => pairs (pts s ++ [s.2]) := by
  have hb := List.getLast?_eq_some_getLast hv
  cases closed with
  | false =>
    have e1 : chainSegs v false = pairs v := by simp [chainSegs, circuit]
    rw [e1] at hf
    have e2 : refine pts v false = (pairs v).flatMap pts ++ [v.getLast hv] := by simp [refine, e1, hb]
    have e3 : ∀ w : List (V3 α), chainSegs w false = pairs w := fun w => by simp [chainSegs, circuit]
    rw [e1, e3, e2, (pairs_fill pts v _ hb hf).2]
  | true =>
    have ha := List.head?_eq_some_head hv
    have e1 : chainSegs v true = pairs (v ++ [v.head hv]) := by simp [chainSegs, circuit, ha]
    rw [e1] at hf
    have hlast : (v ++ [v.head hv]).getLast? = some (v.head hv) := by simp
    have hhead : (v ++ [v.head hv]).head? = some (v.head hv) := by simp [List.head?_append, ha]
    obtain ⟨i1, i2⟩ := pairs_fill pts _ _ hlast hf
    have e2 : refine pts v true = (pairs (v ++ [v.head hv])).flatMap pts := by simp [refine, e1]
    rw [← e2, hhead] at i1
    have hr : (refine pts v true).head? = some (v.head hv) := by
      cases hc : refine pts v true with
      | cons c t => rw [hc] at i1; simpa using i1
      | nil =>
        exfalso
        have hp : ∃ s, s ∈ pairs (v ++ [v.head hv]) := by
          apply List.exists_mem_of_length_pos
          rw [pairs_length]
          simpa using List.length_pos_of_ne_nil hv
        obtain ⟨s, hs⟩ := hp
        have := hf s hs
        rw [e2, List.flatMap_eq_nil_iff] at hc
        rw [hc s hs] at this
        simp at this
    have : chainSegs (refine pts v true) true = pairs (refine pts v true ++ [v.head hv]) := by
      simp [chainSegs, circuit, hr]
    rw [this, e2, i2, e1]

theorem seg_start {v : List (V3 α)} {closed : Bool} {i : ℕ} {s : V3 α × V3 α} (h : (chainSegs v closed)[i]? = some s) :
    v[i]? = some s.1 ∧ s.1 ∈ v ∧ s.2 ∈ v := by
  obtain ⟨h1, h2⟩ := pairs_get _ _ _ h
  have hi : i < (chainSegs v closed).length := (List.getElem?_eq_some_iff.mp h).1
  rw [chainSegs_length] at hi
  have hi' : i < v.length := by split at hi <;> omega
  unfold circuit at h1 h2
  rw [List.getElem?_append_left hi'] at h1
  refine ⟨h1, List.mem_of_getElem? h1, ?_⟩
  rcases List.mem_append.mp (List.mem_of_getElem? h2) with h | h
  · exact h
  · split at h
    · exact List.mem_of_mem_head? (by simpa using h)
    · simp at h
end

/-! ### counts and samples in rounded arithmetic -/

/-- the number of parts of a segment -/
noncomputable def count (L : Rd rnd) (s : V3 (Rd rnd) × V3 (Rd rnd)) : ℕ := max 1 ⌈(V3.norm (s.2 - s.1) / L).val⌉₊

/-- the points put on a segment, its end excluded -/
noncomputable def samples (s : V3 (Rd rnd) × V3 (Rd rnd)) (n : ℕ) : List (V3 (Rd rnd)) :=
  if n ≤ 1 then [s.1] else (linspace01 (α := Rd rnd) n false).map fun t => V3.smul t (s.2 - s.1) + s.1

theorem samples_length (s : V3 (Rd rnd) × V3 (Rd rnd)) (n : ℕ) (hn : 1 ≤ n) : (samples s n).length = n := by
  unfold samples
  split
  · simp; omega
  · simp [linspace01]

/-- one coordinate of a sample -/
noncomputable def sampleVal (rnd : ℝ → ℝ) (a b : ℝ) (n j : ℕ) : ℝ :=
  rnd (rnd (rnd (rnd j * rnd (1 / rnd n)) * rnd (b - a)) + a)

theorem samples_get (h : Rounding rnd u) (s : V3 (Rd rnd) × V3 (Rd rnd)) (n j : ℕ) (hn : 2 ≤ n) (hj : j < n) :
    (samples s n)[j]? = some ⟨⟨sampleVal rnd s.1.x.val s.2.x.val n j⟩, ⟨sampleVal rnd s.1.y.val s.2.y.val n j⟩,
      ⟨sampleVal rnd s.1.z.val s.2.z.val n j⟩⟩ := by
  unfold samples
  rw [if_neg (by omega)]
  have h1 : rnd ((1 : ℚ) : ℝ) = 1 := by push_cast; exact h.one
  simp only [linspace01, Bool.false_eq_true, if_false, Bool.false_and, List.getElem?_map, List.getElem?_range hj, Option.map_some]
  congr 1
  ext <;> simp [V3.smul, sampleVal, h.one]

theorem sample_zero (h : Rounding rnd u) {a : ℝ} (ha : rnd a = a) (b : ℝ) (n : ℕ) : sampleVal rnd a b n 0 = a := by
  simp [sampleVal, h.zero, ha]

theorem samples_head (h : Rounding rnd u) (s : V3 (Rd rnd) × V3 (Rd rnd)) (n : ℕ) (hs : Stored s.1) : (samples s n).head? = some s.1 := by
  by_cases hn : n ≤ 1
  · unfold samples; rw [if_pos hn]; rfl
  · rw [List.head?_eq_getElem?, samples_get h s n 0 (by omega) (by omega), sample_zero h hs.1, sample_zero h hs.2.1, sample_zero h hs.2.2]

theorem gam_le (h : Rounding rnd u) (hu : u ≤ 1 / 1000) : gam u 4 ≤ 402 / 100 * u := gam_four h hu

/-- a coordinate of a sample is right up to `10·u·M` -/
theorem sample_near (h : Rounding rnd u) (hu : u ≤ 1 / 1000) {M a b : ℝ} (ha : |a| ≤ M) (hb : |b| ≤ M) (n j : ℕ) (hn : 1 ≤ n)
    (hn2 : n ≤ 2 ^ 53) (hj : j ≤ n) : |sampleVal rnd a b n j - (a + (j : ℝ) / n * (b - a))| ≤ 10 * (u * M) := by
  have l1 := h.lt_one
  have h0 := h.nonneg
  have hM : 0 ≤ M := (abs_nonneg a).trans ha
  have hn0 : (0 : ℝ) < n := by exact_mod_cast hn
  have rn : rnd n = n := by
    have := h.int (n : ℤ) (by rw [abs_of_nonneg (by positivity)]; exact_mod_cast hn2)
    exact_mod_cast this
  have rj : rnd j = j := by
    have := h.int (j : ℤ) (by rw [abs_of_nonneg (by positivity)]; exact_mod_cast hj.trans hn2)
    exact_mod_cast this
  unfold sampleVal
  rw [rn, rj]
  obtain ⟨W, hW⟩ : ∃ W, W = (j : ℝ) / n := ⟨_, rfl⟩
  have hW0 : 0 ≤ W := by rw [hW]; positivity
  have hW1 : W ≤ 1 := by rw [hW, div_le_one hn0]; exact_mod_cast hj
  obtain ⟨t1, n1, e1⟩ := h.factor (1 / (n : ℝ))
  obtain ⟨t2, n2, e2⟩ := h.factor ((j : ℝ) * (1 / (n : ℝ) * t1))
  obtain ⟨t3, n3, e3⟩ := h.factor (b - a)
  rw [e1, e2, e3]
  rw [show (j : ℝ) * (1 / (n : ℝ) * t1) * t2 * ((b - a) * t3) = W * (b - a) * (t1 * t2 * t3) by rw [hW]; ring, ← hW]
  obtain ⟨t4, n4, e4⟩ := h.factor (W * (b - a) * (t1 * t2 * t3))
  rw [e4]
  have g := factor_err (x := W * (b - a)) h (k := 4) (by push_cast; linarith) (((n1.mul l1 n2).mul l1 n3).mul l1 n4)
  have hg := gam_le h hu
  have hD : |W * (b - a)| ≤ 2 * M := by
    rw [abs_mul, abs_of_nonneg hW0]
    have : |b - a| ≤ 2 * M := by
      have := abs_sub b a
      rw [abs_le] at ha hb ⊢
      constructor <;> linarith
    nlinarith [abs_nonneg (b - a)]
  have hC : |a + W * (b - a)| ≤ M := by
    rw [show a + W * (b - a) = (1 - W) * a + W * b by ring]
    rw [abs_le] at ha hb ⊢
    constructor <;> nlinarith
  have g1 : |W * (b - a) * (t1 * t2 * t3) * t4 - W * (b - a)| ≤ 402 / 100 * u * (2 * M) := by
    rw [show W * (b - a) * (t1 * t2 * t3) * t4 = W * (b - a) * (t1 * t2 * t3 * t4) by ring]
    refine g.trans (mul_le_mul hg hD (abs_nonneg _) (by positivity))
  obtain ⟨Z, hZ⟩ : ∃ Z, Z = W * (b - a) * (t1 * t2 * t3) * t4 := ⟨_, rfl⟩
  rw [← hZ] at g1 ⊢
  have g2 := h.err (Z + a)
  have g3 : |Z + a| ≤ M + 402 / 100 * u * (2 * M) := by
    rw [show Z + a = (a + W * (b - a)) + (Z - W * (b - a)) by ring]
    exact (abs_add_le _ _).trans (add_le_add hC g1)
  have g4 : u * |Z + a| ≤ u * (M + 402 / 100 * u * (2 * M)) := mul_le_mul_of_nonneg_left g3 h0
  have huM : 0 ≤ u * M := mul_nonneg h0 hM
  have huuM : u * (u * M) ≤ 1 / 1000 * (u * M) := mul_le_mul_of_nonneg_right hu huM
  rw [show rnd (Z + a) - (a + W * (b - a)) = (rnd (Z + a) - (Z + a)) + (Z - W * (b - a)) by ring]
  refine (abs_add_le _ _).trans ?_
  nlinarith

/-- samples are in order -/
theorem sample_mono (h : Rounding rnd u) (a b : ℝ) (n j k : ℕ) (hjk : j ≤ k) :
    (a ≤ b → sampleVal rnd a b n j ≤ sampleVal rnd a b n k) ∧ (b ≤ a → sampleVal rnd a b n k ≤ sampleVal rnd a b n j) := by
  have hs : 0 ≤ rnd (1 / rnd n) := (h.nonneg_iff _).mpr (by
    have := (h.nonneg_iff (n : ℝ)).mpr (by positivity)
    positivity)
  have hw : rnd (rnd j * rnd (1 / rnd n)) ≤ rnd (rnd k * rnd (1 / rnd n)) :=
    h.mono (mul_le_mul_of_nonneg_right (h.mono (by exact_mod_cast hjk)) hs)
  unfold sampleVal
  constructor
  · intro hab
    have hd : 0 ≤ rnd (b - a) := (h.nonneg_iff _).mpr (by linarith)
    exact h.mono (by have := h.mono (mul_le_mul_of_nonneg_right hw hd); linarith)
  · intro hab
    have hd : rnd (b - a) ≤ 0 := by
      have := h.mono (show b - a ≤ 0 by linarith)
      rwa [h.zero] at this
    exact h.mono (by have := h.mono (mul_le_mul_of_nonpos_right hw hd); linarith)

/-- `n` is about the fewest parts no longer than `L` of the segment from `a` to `b` -/
def PartsNear (u L : ℝ) (a b : V3 ℝ) (n : ℕ) : Prop :=
  1 ≤ n ∧ dist3 a b ≤ n * L * (1 + gam u 5) ∧ (2 ≤ n → ((n : ℝ) - 1) * L < dist3 a b * (1 + gam u 5))

theorem count_near (h : Rounding rnd u) (hu : u ≤ 1 / 1000) (L : Rd rnd) (hL : 0 < L.val) (s : V3 (Rd rnd) × V3 (Rd rnd)) :
    PartsNear u L.val (Rd.vec s.1) (Rd.vec s.2) (count L s) := by
  have l1 := h.lt_one
  have h0 := h.nonneg
  obtain ⟨t, nt, et⟩ := dist_rd h s.1 s.2
  obtain ⟨D, hD⟩ : ∃ D, D = dist3 (Rd.vec s.1) (Rd.vec s.2) := ⟨_, rfl⟩
  have hD0 : 0 ≤ D := by rw [hD]; exact len3_nonneg _
  rw [← hD] at et
  obtain ⟨t', nt', et'⟩ := h.factor (D * t / L.val)
  have ntt := nt.mul l1 nt'
  have hval : (V3.norm (s.2 - s.1) / L).val = D / L.val * (t * t') := by
    rw [Rd.val_div, et, et']; ring
  have g := ntt.gam_bound (k := 5) h0 (by push_cast; linarith) l1
  have ginv := (ntt.inv l1).gam_bound (k := 5) h0 (by push_cast; linarith) l1
  have tp := ntt.pos l1
  rw [abs_le] at g ginv
  unfold PartsNear count
  rw [hval, ← hD]
  obtain ⟨x, hx⟩ : ∃ x, x = D / L.val * (t * t') := ⟨_, rfl⟩
  rw [← hx]
  have hDx : D = x * L.val * (t * t')⁻¹ := by
    rw [hx, show D / L.val * (t * t') * L.val * (t * t')⁻¹ = D / L.val * L.val * ((t * t') * (t * t')⁻¹) by ring,
      mul_inv_cancel₀ tp.ne', mul_one, div_mul_cancel₀ _ hL.ne']
  refine ⟨le_max_left _ _, ?_, ?_⟩
  · have hxn : x ≤ ((max 1 ⌈x⌉₊ : ℕ) : ℝ) := (Nat.le_ceil x).trans (by exact_mod_cast le_max_right _ _)
    have hinv : (t * t')⁻¹ ≤ 1 + gam u 5 := by linarith [ginv.2]
    have h1 : 0 ≤ (t * t')⁻¹ := by positivity
    rw [hDx]
    exact mul_le_mul (mul_le_mul_of_nonneg_right hxn hL.le) hinv h1 (by positivity)
  · intro h2
    have hm : max 1 ⌈x⌉₊ = ⌈x⌉₊ := by omega
    rw [hm] at h2 ⊢
    have hx0 : 0 ≤ x := by rw [hx]; positivity
    have hlt : (⌈x⌉₊ : ℝ) - 1 < x := by linarith [Nat.ceil_lt_add_one hx0]
    have : x * L.val = D * (t * t') := by rw [hx]; field_simp
    have hg : t * t' ≤ 1 + gam u 5 := by linarith [g.2]
    calc ((⌈x⌉₊ : ℝ) - 1) * L.val < x * L.val := mul_lt_mul_of_pos_right hlt hL
      _ = D * (t * t') := this
      _ ≤ D * (1 + gam u 5) := mul_le_mul_of_nonneg_left hg hD0

theorem count_le (h : Rounding rnd u) (hu : u ≤ 1 / 1000) (L : Rd rnd) (hL : 0 < L.val) (s : V3 (Rd rnd) × V3 (Rd rnd))
    (hd : dist3 (Rd.vec s.1) (Rd.vec s.2) ≤ 2 ^ 52 * L.val) : count L s ≤ 2 ^ 53 := by
  by_contra hc
  obtain ⟨_, _, h3⟩ := count_near h hu L hL s
  have h3 := h3 (by omega)
  have hc' : (2 : ℝ) ^ 53 ≤ (count L s : ℝ) - 1 := by
    have : 2 ^ 53 + 1 ≤ count L s := by omega
    have : ((2 ^ 53 + 1 : ℕ) : ℝ) ≤ count L s := by exact_mod_cast this
    push_cast at this; linarith
  have hg : gam u 5 ≤ 1 / 2 := by
    have h0 := h.nonneg
    unfold gam
    rw [div_le_iff₀ (by push_cast; linarith)]
    push_cast; linarith
  have hd0 : 0 ≤ dist3 (Rd.vec s.1) (Rd.vec s.2) := len3_nonneg _
  have k1 : (2 : ℝ) ^ 53 * L.val < dist3 (Rd.vec s.1) (Rd.vec s.2) * (1 + gam u 5) :=
    lt_of_le_of_lt (mul_le_mul_of_nonneg_right hc' hL.le) h3
  have k2 : dist3 (Rd.vec s.1) (Rd.vec s.2) * (1 + gam u 5) ≤ 2 ^ 52 * L.val * (3 / 2) :=
    mul_le_mul hd (by linarith) (by linarith [gam_nonneg (k := 5) h.nonneg (by push_cast; linarith)]) (by positivity)
  nlinarith

theorem turn_rd (h : Rounding rnd u) (hu : u ≤ 1 / 1000) (L : Rd rnd) (hL : 0 < L.val) (s : V3 (Rd rnd) × V3 (Rd rnd))
    (hd : dist3 (Rd.vec s.1) (Rd.vec s.2) ≤ 2 ^ 52 * L.val) :
    Turn s (Polyline.npCeil (V3.norm (s.2 - s.1) / L)) (samples s (count L s)) := by
  have hle := count_le h hu L hL s hd
  obtain ⟨x, hx⟩ : ∃ x : Rd rnd, x = V3.norm (s.2 - s.1) / L := ⟨_, rfl⟩
  have hcount : count L s = max 1 ⌈x.val⌉₊ := by rw [hx]; rfl
  have hx0 : 0 ≤ x.val := by
    rw [hx, Rd.val_div, h.nonneg_iff]
    apply div_nonneg _ hL.le
    obtain ⟨t, nt, et⟩ := dist_rd h s.1 s.2
    rw [et]
    exact mul_nonneg (len3_nonneg _) (nt.pos h.lt_one).le
  have hc : (⌈x.val⌉₊ : ℤ) = ⌈x.val⌉ := Int.natCast_ceil_eq_ceil hx0
  have hceil : (Polyline.npCeil x).val = ⌈x.val⌉₊ := by
    show (Num.lit ((-⌊(-x).val⌋ : ℤ) : ℚ) : Rd rnd).val = _
    rw [Rd.val_neg, Int.floor_neg, neg_neg, ← hc, Rd.val_lit]
    push_cast
    have := h.int (⌈x.val⌉₊ : ℤ) (by
      rw [abs_of_nonneg (by positivity)]
      have : ⌈x.val⌉₊ ≤ 2 ^ 53 := le_trans (le_max_right 1 _) (hcount ▸ hle)
      exact_mod_cast this)
    exact_mod_cast this
  have l1 : (Num.lit 1 : Rd rnd).val = 1 := by rw [Rd.val_lit]; push_cast; exact h.one
  rw [← hx]
  by_cases h1 : ⌈x.val⌉₊ ≤ 1
  · left
    refine ⟨?_, ?_⟩
    · rw [Rd.le_iff, hceil, l1]; exact_mod_cast h1
    · have : count L s = 1 := by rw [hcount]; omega
      rw [this]; rfl
  · right
    have hn : count L s = ⌈x.val⌉₊ := by rw [hcount]; omega
    refine ⟨?_, (⌈x.val⌉₊ : ℤ), ?_, ?_⟩
    · rw [Bool.eq_false_iff, Ne, Rd.le_iff, hceil, l1]
      intro hh; exact h1 (by exact_mod_cast hh)
    · show (match (some ⌊(Polyline.npCeil x).val⌋ : Option ℤ) with
        | some k => (.ok k : PyM ℤ)
        | none => if npIsNan (Polyline.npCeil x) then raise .ValueError else raise .OverflowError) = _
      rw [hceil, Int.floor_natCast]
    · unfold partitionSegment samples
      rw [hn, if_neg h1]
      simp only
      rw [if_neg (by omega), Int.toNat_natCast]
      rfl

theorem finite_rd (ps : List (V3 (Rd rnd))) : ∀ p ∈ ps, ∀ x ∈ p.toList, npIsNan x = false ∧ npIsInf x = false := by
  intro p _ x _
  have e : ∀ y : Rd rnd, npIsNan y = false := fun y => by
    unfold npIsNan
    rw [(Rd.eq_iff y y).mpr rfl]
    rfl
  simp [npIsInf, e]


/-! ### the whole call -/

/-- what is asked of the arguments: stored vertices of size at most `M`, a positive limit, and no segment
longer than `2^52` limits -/
def Fit (M : ℝ) (v : List (V3 (Rd rnd))) (closed : Bool) (L : Rd rnd) : Prop :=
  v ≠ [] ∧ (∀ p ∈ v, Stored p ∧ Within M (Rd.vec p)) ∧ 0 < L.val ∧
  ∀ s ∈ chainSegs v closed, dist3 (Rd.vec s.1) (Rd.vec s.2) ≤ 2 ^ 52 * L.val

/-- the points of a segment -/
noncomputable def pts (L : Rd rnd) (s : V3 (Rd rnd) × V3 (Rd rnd)) : List (V3 (Rd rnd)) := samples s (count L s)

theorem count_pos (L : Rd rnd) (s : V3 (Rd rnd) × V3 (Rd rnd)) : 1 ≤ count L s := le_max_left _ _

theorem pts_length (L : Rd rnd) (s : V3 (Rd rnd) × V3 (Rd rnd)) : (pts L s).length = count L s := samples_length _ _ (count_pos L s)

/-- positions of the original vertices -/
def places (ns : List ℕ) (k : ℕ) : List ℕ := (List.range k).map fun i => (ns.take i).sum

theorem places_eq (L : Rd rnd) (v : List (V3 (Rd rnd))) (closed : Bool) (hv : v ≠ []) :
    starts 0 ((chainSegs v closed).map fun s => (pts L s).length) ++
        (if closed then [] else [((chainSegs v closed).flatMap (pts L)).length]) =
      places ((chainSegs v closed).map (count L)) v.length := by
  have hl := chainSegs_length v closed
  have hp : 0 < v.length := List.length_pos_of_ne_nil hv
  rw [flatMap_len]
  simp only [pts_length]
  rw [starts_eq, places]
  simp only [zero_add, List.length_map]
  cases closed with
  | true => rw [if_pos rfl] at hl; simp [hl]
  | false =>
    rw [if_neg (by simp)] at hl
    obtain ⟨k, hk⟩ : ∃ k, v.length = k + 1 := ⟨v.length - 1, by omega⟩
    have hlk : (chainSegs v false).length = k := by omega
    rw [hk, hlk, List.range_succ, List.map_append]
    have : ((chainSegs v false).map (count L)).take k = (chainSegs v false).map (count L) :=
      List.take_of_length_le (by rw [List.length_map, hlk])
    simp [this]

theorem partition_rd (h : Rounding rnd u) (hu : u ≤ 1 / 1000) {M : ℝ} {v : List (V3 (Rd rnd))} {closed : Bool} {L : Rd rnd}
    (hf : Fit M v closed L) : (poly v closed).partitionByLength L =
      (poly (refine (pts L) v closed) closed, .ok (places ((chainSegs v closed).map (count L)) v.length)) := by
  obtain ⟨hv, _, hL, hd⟩ := hf
  rw [partition_any v closed hv L (pts L) (fun s hs => turn_rd h hu L hL s (hd s hs))
    (fun s _ => List.ne_nil_of_length_pos (by rw [pts_length]; exact count_pos L s)) (finite_rd _), places_eq L v closed hv]

/-- within `k` of each other in every coordinate -/
def Close (k : ℝ) (a b : V3 ℝ) : Prop := |a.x - b.x| ≤ k ∧ |a.y - b.y| ≤ k ∧ |a.z - b.z| ≤ k

/-- the exact division point -/
noncomputable def divPoint (a b : V3 ℝ) (n j : ℕ) : V3 ℝ := along a ((j : ℝ) / n) (vec3 a b)

theorem samples_near (h : Rounding rnd u) (hu : u ≤ 1 / 1000) {M : ℝ} (s : V3 (Rd rnd) × V3 (Rd rnd)) (ha : Stored s.1 ∧ Within M (Rd.vec s.1))
    (hb : Within M (Rd.vec s.2)) (n j : ℕ) (hn : n ≤ 2 ^ 53) (hj : j < n) :
    ∃ p, (samples s n)[j]? = some p ∧ Stored p ∧ Close (10 * (u * M)) (Rd.vec p) (divPoint (Rd.vec s.1) (Rd.vec s.2) n j) := by
  obtain ⟨hs, hw⟩ := ha
  by_cases h1 : n ≤ 1
  · have hM : 0 ≤ M := (abs_nonneg _).trans hw.1
    have huM := mul_nonneg h.nonneg hM
    have : j = 0 := by omega
    subst this
    refine ⟨s.1, ?_, hs, ?_⟩
    · unfold samples; rw [if_pos h1]; rfl
    · refine ⟨?_, ?_, ?_⟩ <;> simp [divPoint, along, vec3] <;> linarith
  · refine ⟨_, samples_get h s n j (by omega) hj, ⟨h.idem _, h.idem _, h.idem _⟩, ?_, ?_, ?_⟩
    · exact sample_near h hu hw.1 hb.1 n j (by omega) hn hj.le
    · exact sample_near h hu hw.2.1 hb.2.1 n j (by omega) hn hj.le
    · exact sample_near h hu hw.2.2 hb.2.2 n j (by omega) hn hj.le

theorem refine_get (L : Rd rnd) (v : List (V3 (Rd rnd))) (closed : Bool) (i : ℕ) (s : V3 (Rd rnd) × V3 (Rd rnd))
    (hs : (chainSegs v closed)[i]? = some s) (j : ℕ) (hj : j < count L s) :
    (refine (pts L) v closed)[(((chainSegs v closed).map (count L)).take i).sum + j]? = (pts L s)[j]? := by
  have e := flatMap_get (pts L) (chainSegs v closed) i s j hs (by rw [pts_length]; exact hj)
  simp only [pts_length] at e
  have e : ((chainSegs v closed).flatMap (pts L))[(((chainSegs v closed).map (count L)).take i).sum + j]? = (pts L s)[j]? := e
  unfold refine
  have hlen : (((chainSegs v closed).map (count L)).take i).sum + j < ((chainSegs v closed).flatMap (pts L)).length := by
    by_contra hc
    rw [List.getElem?_eq_none (by omega)] at e
    have := List.getElem?_eq_none_iff.mp e.symm
    rw [pts_length] at this
    omega
  rw [List.getElem?_append_left hlen]
  exact e

/-- in every coordinate, `q` is no farther back than `p` on the way from the start to the end of `s` -/
def Toward (s : V3 (Rd rnd) × V3 (Rd rnd)) (p q : V3 (Rd rnd)) : Prop :=
  ∀ c ∈ [V3.x, V3.y, V3.z], ((c s.1).val ≤ (c s.2).val → (c p).val ≤ (c q).val) ∧ ((c s.2).val ≤ (c s.1).val → (c q).val ≤ (c p).val)

theorem samples_toward (h : Rounding rnd u) (s : V3 (Rd rnd) × V3 (Rd rnd)) (n j k : ℕ) (hjk : j ≤ k) (hk : k < n)
    (p q : V3 (Rd rnd)) (hp : (samples s n)[j]? = some p) (hq : (samples s n)[k]? = some q) : Toward s p q := by
  by_cases h1 : n ≤ 1
  · have : j = 0 := by omega
    have : k = 0 := by omega
    subst j k
    rw [hp] at hq
    injection hq with hq
    subst hq
    simp [Toward]
  · rw [samples_get h s n j (by omega) (by omega)] at hp
    rw [samples_get h s n k (by omega) hk] at hq
    injection hp with hp
    injection hq with hq
    subst hp hq
    intro c hc
    simp only [List.mem_cons, List.not_mem_nil, or_false] at hc
    rcases hc with rfl | rfl | rfl <;> exact sample_mono h _ _ _ _ _ hjk

/-! ### lengths -/

theorem len3_le_of_within {k : ℝ} {v : V3 ℝ} (hk : 0 ≤ k) (hv : |v.x| ≤ k ∧ |v.y| ≤ k ∧ |v.z| ≤ k) : len3 v ≤ 7 / 4 * k := by
  unfold len3
  rw [Real.sqrt_le_left (by positivity)]
  have e : ∀ x : ℝ, |x| ≤ k → x * x ≤ k * k := fun x hx => by
    rw [← abs_mul_abs_self x]; exact mul_le_mul hx hx (abs_nonneg _) hk
  have := e _ hv.1
  have := e _ hv.2.1
  have := e _ hv.2.2
  simp only [sq]
  nlinarith [mul_nonneg hk hk]

theorem dist_close {k : ℝ} (hk : 0 ≤ k) {a b : V3 ℝ} (h : Close k a b) : dist3 a b ≤ 7 / 4 * k := by
  apply len3_le_of_within hk
  obtain ⟨h1, h2, h3⟩ := h
  rw [abs_sub_comm] at h1 h2 h3
  exact ⟨h1, h2, h3⟩

theorem dist_diff {k : ℝ} (hk : 0 ≤ k) {a b c d : V3 ℝ} (h1 : Close k a c) (h2 : Close k b d) :
    |dist3 a b - dist3 c d| ≤ 7 / 2 * k := by
  have e1 := dist_close hk h1
  have e2 := dist_close hk h2
  have t1 := dist3_triangle a c b
  have t2 := dist3_triangle c d b
  have t3 := dist3_triangle c a d
  have t4 := dist3_triangle a b d
  rw [dist3_comm d b] at t2
  rw [dist3_comm c a] at t3
  rw [abs_le]
  constructor <;> linarith

theorem divPoint_dist (a b : V3 ℝ) (n j : ℕ) (hn : 1 ≤ n) : dist3 (divPoint a b n j) (divPoint a b n (j + 1)) = dist3 a b / n := by
  have h : (0 : ℝ) < n := by exact_mod_cast hn
  have e : vec3 (divPoint a b n j) (divPoint a b n (j + 1)) = scale3 (1 / (n : ℝ)) (vec3 a b) := by
    ext <;> simp [divPoint, along, vec3, scale3] <;> ring
  unfold dist3
  rw [e, len3_scale, abs_of_pos (by positivity)]
  ring

theorem close_self {k : ℝ} (hk : 0 ≤ k) (a : V3 ℝ) : Close k a a := by simp [Close, hk]

theorem divPoint_last (a b : V3 ℝ) (n : ℕ) (hn : 1 ≤ n) : divPoint a b n n = b := by
  have h : (n : ℝ) ≠ 0 := by exact_mod_cast (by omega : n ≠ 0)
  unfold divPoint
  rw [div_self h]
  ext <;> simp [along, vec3]

/-- every new segment is about an equal part of its original -/
theorem part_length (h : Rounding rnd u) (hu : u ≤ 1 / 1000) {M : ℝ} (hM : 0 ≤ M) (s : V3 (Rd rnd) × V3 (Rd rnd))
    (ha : Stored s.1 ∧ Within M (Rd.vec s.1)) (hb : Within M (Rd.vec s.2)) (n : ℕ) (h1 : 1 ≤ n) (hn : n ≤ 2 ^ 53)
    (t : V3 (Rd rnd) × V3 (Rd rnd)) (ht : t ∈ pairs (samples s n ++ [s.2])) :
    |dist3 (Rd.vec t.1) (Rd.vec t.2) - dist3 (Rd.vec s.1) (Rd.vec s.2) / n| ≤ 35 * (u * M) := by
  have hk : 0 ≤ 10 * (u * M) := by have := mul_nonneg h.nonneg hM; linarith
  obtain ⟨j, hj⟩ := List.mem_iff_getElem?.mp ht
  obtain ⟨g1, g2⟩ := pairs_get _ _ _ hj
  have hl := samples_length s n h1
  have key : ∀ (i : ℕ) (p : V3 (Rd rnd)), (samples s n ++ [s.2])[i]? = some p →
      i ≤ n ∧ Close (10 * (u * M)) (Rd.vec p) (divPoint (Rd.vec s.1) (Rd.vec s.2) n i) := by
    intro i p hi
    by_cases hin : i < n
    · rw [List.getElem?_append_left (by omega)] at hi
      obtain ⟨q, hq, _, hc⟩ := samples_near h hu s ha hb n i hn hin
      rw [hi] at hq
      injection hq with hq
      subst hq
      exact ⟨hin.le, hc⟩
    · have : i < (samples s n ++ [s.2]).length := (List.getElem?_eq_some_iff.mp hi).1
      simp [hl] at this
      have hi2 : i = n := by omega
      subst hi2
      rw [List.getElem?_append_right (by omega), hl] at hi
      simp at hi
      subst hi
      rw [divPoint_last _ _ _ h1]
      exact ⟨le_rfl, close_self hk _⟩
  obtain ⟨_, c1⟩ := key _ _ g1
  obtain ⟨_, c2⟩ := key _ _ g2
  have := dist_diff hk c1 c2
  rw [divPoint_dist _ _ _ _ h1] at this
  linarith

theorem sum_near {Q : Type} (f : Q → ℝ) (c e : ℝ) : ∀ l : List Q, (∀ x ∈ l, |f x - c| ≤ e) → |(l.map f).sum - l.length * c| ≤ l.length * e
  | [], _ => by simp
  | x :: l, hl => by
    have ih := sum_near f c e l (fun y hy => hl y (by simp [hy]))
    have h1 := hl x (by simp)
    simp only [List.map_cons, List.sum_cons, List.length_cons, Nat.cast_add, Nat.cast_one]
    rw [show f x + (l.map f).sum - ((l.length : ℝ) + 1) * c = (f x - c) + ((l.map f).sum - l.length * c) by ring]
    refine (abs_add_le _ _).trans ?_
    linarith

theorem pairs_len {P : Type} : ∀ l : List P, (pairs l).length = l.length - 1
  | [] => rfl
  | [_] => rfl
  | _ :: b :: r => by simp [pairs, pairs_len (b :: r)]

theorem flatMap_near {Q R : Type} (f : Q → List R) (g : R → ℝ) (d : Q → ℝ) (n : Q → ℕ) (e : ℝ) : ∀ l : List Q,
    (∀ q ∈ l, |((f q).map g).sum - d q| ≤ n q * e) → |((l.flatMap f).map g).sum - (l.map d).sum| ≤ ((l.map n).sum : ℕ) * e
  | [], _ => by simp
  | q :: l, h => by
    have ih := flatMap_near f g d n e l (fun y hy => h y (by simp [hy]))
    have h1 := h q (by simp)
    simp only [List.flatMap_cons, List.map_append, List.sum_append, List.map_cons, List.sum_cons, Nat.cast_add]
    rw [show ((f q).map g).sum + ((l.flatMap f).map g).sum - (d q + (l.map d).sum) =
      (((f q).map g).sum - d q) + (((l.flatMap f).map g).sum - (l.map d).sum) by ring]
    refine (abs_add_le _ _).trans ?_
    linarith

/-- the exact length of a polyline whose coordinates are numbers of the rounded arithmetic -/
noncomputable def exactLength (v : List (V3 (Rd rnd))) (closed : Bool) : ℝ :=
  ((chainSegs v closed).map fun s => dist3 (Rd.vec s.1) (Rd.vec s.2)).sum

end FPa
open FPa

variable {rnd : ℝ → ℝ} {u : ℝ}

/-- **C105.** Partitioning in rounded arithmetic: segment `i` gets `ns[i]` parts, about the fewest that are no
longer than the limit; the returned indices are those of the original vertices, which are kept exactly; the
other vertices are representable, within `10·u·M` of the equal divisions in every coordinate, and in order
along their segment. -/
theorem C105_partition (h : Rounding rnd u) (hu : u ≤ 1 / 1000) {M : ℝ} {v : List (V3 (Rd rnd))} {closed : Bool} {L : Rd rnd}
    (hf : Fit M v closed L) : ∃ ns vs,
      (poly v closed).partitionByLength L = (poly vs closed, .ok (places ns v.length)) ∧
      ns.length = (chainSegs v closed).length ∧ vs.length = ns.sum + (if closed then 0 else 1) ∧
      (∀ (i : ℕ) p, v[i]? = some p → vs[(ns.take i).sum]? = some p) ∧
      ∀ (i : ℕ) s, (chainSegs v closed)[i]? = some s → ∃ n, ns[i]? = some n ∧
        PartsNear u L.val (Rd.vec s.1) (Rd.vec s.2) n ∧
        ∀ j < n, ∃ p, vs[(ns.take i).sum + j]? = some p ∧ Stored p ∧
          Close (10 * (u * M)) (Rd.vec p) (divPoint (Rd.vec s.1) (Rd.vec s.2) n j) ∧
          ∀ k q, j ≤ k → k < n → vs[(ns.take i).sum + k]? = some q → Toward s p q := by
  have hf' := hf
  obtain ⟨hv, hM, hL, hd⟩ := hf
  have hlast := List.getLast?_eq_some_getLast hv
  have hlen : (refine (pts L) v closed).length = ((chainSegs v closed).map (count L)).sum + (if closed then 0 else 1) := by
    unfold refine
    rw [List.length_append, flatMap_len]
    simp only [pts_length]
    congr 1
    cases closed <;> simp [hlast]
  refine ⟨(chainSegs v closed).map (count L), refine (pts L) v closed, partition_rd h hu hf', by simp, hlen, ?_, ?_⟩
  · intro i p hi
    have hil : i < v.length := (List.getElem?_eq_some_iff.mp hi).1
    have hl := chainSegs_length v closed
    by_cases hc : i < (chainSegs v closed).length
    · have hs := List.getElem?_eq_getElem hc
      obtain ⟨e1, hm, _⟩ := seg_start hs
      rw [hi] at e1
      injection e1 with e1
      have := refine_get L v closed i _ hs 0 (by have := count_pos L (chainSegs v closed)[i]; omega)
      rw [add_zero] at this
      rw [this, ← List.head?_eq_getElem?]
      rw [e1]
      exact samples_head h _ _ (hM _ hm).1
    · cases closed with
      | true => rw [if_pos rfl] at hl; omega
      | false =>
        rw [if_neg (by simp)] at hl
        have hi' : i = v.length - 1 := by omega
        have e1 : p = v.getLast hv := by
          rw [List.getLast_eq_getElem]
          rw [hi', List.getElem?_eq_getElem (by omega)] at hi
          injection hi with hi
          exact hi.symm
        have e2 : ((chainSegs v false).map (count L)).take i = (chainSegs v false).map (count L) :=
          List.take_of_length_le (by rw [List.length_map]; omega)
        have e3 : ((chainSegs v false).flatMap (pts L)).length = ((chainSegs v false).map (count L)).sum := by
          rw [flatMap_len]; simp only [pts_length]
        rw [e2]
        unfold refine
        rw [List.getElem?_append_right (by rw [e3]), e3]
        simp [hlast, e1]
  · intro i s hs
    have hmem := List.mem_of_getElem? hs
    obtain ⟨_, m1, m2⟩ := seg_start hs
    refine ⟨count L s, by simp [hs], count_near h hu L hL s, fun j hj => ?_⟩
    rw [refine_get L v closed i s hs j hj]
    obtain ⟨p, hp, h1, h2⟩ := samples_near h hu s (hM _ m1) (hM _ m2).2 _ j (count_le h hu L hL s (hd s hmem)) hj
    refine ⟨p, hp, h1, h2, fun k q hjk hk hq => ?_⟩
    rw [refine_get L v closed i s hs k hk] at hq
    exact samples_toward h s _ j k hjk hk p q hp hq

/-- **C105.** Every new segment lies within `35·u·M` of an equal part of its original in length, and exceeds the
limit by no more than that and the relative error of the count; the total length changes by at most `35·u·M`
for every new segment. -/
theorem C105_lengths (h : Rounding rnd u) (hu : u ≤ 1 / 1000) {M : ℝ} {v vs : List (V3 (Rd rnd))} {closed : Bool} {L : Rd rnd}
    (hf : Fit M v closed L) {idx : List ℕ} (hr : (poly v closed).partitionByLength L = (poly vs closed, .ok idx)) :
    (∀ t ∈ chainSegs vs closed, ∃ s ∈ chainSegs v closed, ∃ n, PartsNear u L.val (Rd.vec s.1) (Rd.vec s.2) n ∧
      |dist3 (Rd.vec t.1) (Rd.vec t.2) - dist3 (Rd.vec s.1) (Rd.vec s.2) / n| ≤ 35 * (u * M) ∧
      dist3 (Rd.vec t.1) (Rd.vec t.2) ≤ L.val * (1 + gam u 5) + 35 * (u * M)) ∧
    |exactLength vs closed - exactLength v closed| ≤ (chainSegs vs closed).length * (35 * (u * M)) := by
  rw [partition_rd h hu hf] at hr
  have hvs : refine (pts L) v closed = vs := by
    have := congrArg (fun r => r.1.v) hr
    simpa [poly] using this
  subst hvs
  obtain ⟨hv, hW, hL, hd⟩ := hf
  have hM : 0 ≤ M := by
    obtain ⟨p, hp⟩ := List.exists_mem_of_ne_nil _ hv
    exact (abs_nonneg _).trans (hW p hp).2.1
  have mem : ∀ s ∈ chainSegs v closed, s.1 ∈ v ∧ s.2 ∈ v := fun s hs => by
    obtain ⟨i, hi⟩ := List.mem_iff_getElem?.mp hs
    exact (seg_start hi).2
  have hsegs := refine_segs (pts L) v closed hv (fun s hs => samples_head h s _ (hW _ (mem s hs).1).1)
  have part : ∀ s ∈ chainSegs v closed, ∀ t ∈ pairs (pts L s ++ [s.2]),
      |dist3 (Rd.vec t.1) (Rd.vec t.2) - dist3 (Rd.vec s.1) (Rd.vec s.2) / count L s| ≤ 35 * (u * M) := fun s hs t ht =>
    part_length h hu hM s (hW _ (mem s hs).1) (hW _ (mem s hs).2).2 _ (count_pos L s) (count_le h hu L hL s (hd s hs)) t ht
  constructor
  · intro t ht
    rw [hsegs, List.mem_flatMap] at ht
    obtain ⟨s, hs, ht⟩ := ht
    have hp := part s hs t ht
    have hn := count_near h hu L hL s
    refine ⟨s, hs, count L s, hn, hp, ?_⟩
    have hc : (0 : ℝ) < count L s := by exact_mod_cast count_pos L s
    have : dist3 (Rd.vec s.1) (Rd.vec s.2) / count L s ≤ L.val * (1 + gam u 5) := by
      rw [div_le_iff₀ hc]
      linarith [hn.2.1]
    linarith [(abs_le.mp hp).2]
  · unfold exactLength
    have hpl : ∀ s, (pairs (pts L s ++ [s.2])).length = count L s := fun s => by rw [pairs_len]; simp [pts_length]
    have hlen : (chainSegs (refine (pts L) v closed) closed).length = ((chainSegs v closed).map (count L)).sum := by
      rw [hsegs, flatMap_len]
      simp only [hpl]
    rw [hlen, hsegs]
    refine flatMap_near _ _ _ (count L) _ _ (fun s hs => ?_)
    have := sum_near (fun t : V3 (Rd rnd) × V3 (Rd rnd) => dist3 (Rd.vec t.1) (Rd.vec t.2)) _ _ _ (part s hs)
    rw [hpl] at this
    have hc : (count L s : ℝ) ≠ 0 := by exact_mod_cast (by have := count_pos L s; omega : count L s ≠ 0)
    rwa [mul_div_cancel₀ _ hc] at this

/-- **C105.** Unless the exact ratio of length to limit is within a relative `gam u 5` of a whole number, the
number of parts is exactly the fewest (that of C36). -/
theorem C105_fewest (u L : ℝ) (hL : 0 < L) (a b : V3 ℝ) (n : ℕ) (hn : PartsNear u L a b n)
    (hfar : ∀ m : ℕ, 1 ≤ m → gam u 5 * m < |dist3 a b / L - m|) : n = parts L (a, b) := by
  obtain ⟨n1, n2, n3⟩ := hn
  obtain ⟨x, hx⟩ : ∃ x, x = dist3 a b / L := ⟨_, rfl⟩
  have hD : dist3 a b = x * L := by rw [hx]; field_simp
  have hx0 : 0 ≤ x := by rw [hx]; exact div_nonneg (len3_nonneg _) hL.le
  rw [← hx] at hfar
  have g0 : 0 ≤ gam u 5 ∨ gam u 5 < 0 := le_or_gt _ _
  have k2 : x ≤ n * (1 + gam u 5) := by
    rw [hD] at n2
    exact le_of_mul_le_mul_right (by linarith) hL
  have e1 : x ≤ n := by
    by_contra hc
    have := hfar n n1
    rw [abs_of_pos (by linarith)] at this
    nlinarith
  have e2 : parts L (a, b) ≤ n := by
    rw [parts, max_le_iff]
    refine ⟨n1, ?_⟩
    show ⌈dist3 a b / L⌉₊ ≤ n
    rw [← hx, Nat.ceil_le]
    exact e1
  refine le_antisymm ?_ e2
  by_cases h2 : 2 ≤ n
  · have k3 : (n : ℝ) - 1 < x * (1 + gam u 5) := by
      have := n3 h2
      rw [hD] at this
      exact lt_of_mul_lt_mul_right (by linarith) hL.le
    obtain ⟨m, rfl⟩ : ∃ m, n = m + 1 := ⟨n - 1, by omega⟩
    push_cast at k3
    have hm : (m : ℝ) < x := by
      by_contra hc
      have := hfar m (by omega)
      rw [abs_of_nonpos (by linarith)] at this
      rcases g0 with g0 | g0 <;> nlinarith
    have : m < ⌈x⌉₊ := Nat.lt_ceil.mpr hm
    have e3 : ⌈x⌉₊ ≤ parts L (a, b) := by
      rw [hx]; exact le_max_right _ _
    omega
  · have := parts_pos L (a, b)
    omega

/-! ### double precision -/

namespace FPa

noncomputable def upV (p : V3 QD) : V3 (Rd rnd53) := ⟨p.x.toRd, p.y.toRd, p.z.toRd⟩

noncomputable def upS (s : V3 QD × V3 QD) : V3 (Rd rnd53) × V3 (Rd rnd53) := (upV s.1, upV s.2)

def countQ (L : QD) (s : V3 QD × V3 QD) : ℕ := max 1 ⌈(V3.norm (s.2 - s.1) / L).val⌉₊

def samplesQ (s : V3 QD × V3 QD) (n : ℕ) : List (V3 QD) :=
  if n ≤ 1 then [s.1] else (linspace01 (α := QD) n false).map fun t => V3.smul t (s.2 - s.1) + s.1

theorem norm_up (s : V3 QD × V3 QD) : V3.norm ((upS s).2 - (upS s).1) = (V3.norm (s.2 - s.1)).toRd := by
  simp [V3.norm, V3.dot, upS, upV, QD.toRd_sqrt, QD.toRd_add, QD.toRd_mul, QD.toRd_sub]

theorem count_up (L : QD) (s : V3 QD × V3 QD) : count L.toRd (upS s) = countQ L s := by
  unfold count countQ
  rw [norm_up, ← QD.toRd_div, QD.toRd_val]
  congr 1
  apply eq_of_forall_ge_iff
  intro c
  rw [Nat.ceil_le, Nat.ceil_le]
  exact_mod_cast Iff.rfl

theorem samples_up (s : V3 QD × V3 QD) (n : ℕ) : samples (upS s) n = (samplesQ s n).map upV := by
  unfold samples samplesQ
  split
  · rfl
  · simp only [linspace01, List.map_map, Bool.false_eq_true, if_false]
    apply List.map_congr_left
    intro j _
    simp [V3.smul, upS, upV, QD.toRd_add, QD.toRd_mul, QD.toRd_sub, QD.toRd_lit, QD.toRd_div]
    rfl

theorem pairs_map {P Q : Type} (f : P → Q) : ∀ l : List P, pairs (l.map f) = (pairs l).map fun s => (f s.1, f s.2)
  | [] => rfl
  | [_] => rfl
  | a :: b :: r => by
    have := pairs_map f (b :: r)
    simp only [List.map_cons] at this
    simp [pairs, this]

theorem segs_up (v : List (V3 QD)) (closed : Bool) : chainSegs (v.map upV) closed = (chainSegs v closed).map upS := by
  unfold chainSegs circuit
  cases closed
  · simp only [Bool.false_eq_true, if_false, List.append_nil]
    exact pairs_map upV v
  · have : v.map upV ++ (v.map upV).head?.toList = (v ++ v.head?.toList).map upV := by cases v <;> simp
    simp only [if_true]
    rw [this]
    exact pairs_map upV _

def ptsQ (L : QD) (s : V3 QD × V3 QD) : List (V3 QD) := samplesQ s (countQ L s)

theorem refine_up (L : QD) (v : List (V3 QD)) (closed : Bool) :
    refine (pts L.toRd) (v.map upV) closed = (refine (ptsQ L) v closed).map upV := by
  unfold refine
  rw [segs_up, List.map_append, List.flatMap_map, List.map_flatMap]
  congr 1
  · congr 1
    funext s
    unfold pts ptsQ
    rw [count_up, samples_up]
  · cases closed
    · cases h : v.getLast? <;> simp [h]
    · simp

/-- from the origin to `(1, 0, 0)` -/
def unitQ : List (V3 QD) := [⟨⟨0⟩, ⟨0⟩, ⟨0⟩⟩, ⟨⟨1⟩, ⟨0⟩, ⟨0⟩⟩]

/-- the double nearest to a tenth -/
def tenthQ : QD := Num.lit (1 / 10)

/-- from the origin to `(1, 2^-30, 0)` -/
def skewQ : List (V3 QD) := [⟨⟨0⟩, ⟨0⟩, ⟨0⟩⟩, ⟨⟨1⟩, ⟨1 / 2 ^ 30⟩, ⟨0⟩⟩]

/-- all coordinates are doubles from 0 to 1 -/
def okQ (v : List (V3 QD)) : Bool := v.all fun p => p.toList.all fun x => decide (rndQ x.val = x.val ∧ 0 ≤ x.val ∧ x.val ≤ 1)

theorem fit_up (v : List (V3 QD)) (closed : Bool) (L : QD) (hv : v ≠ []) (hok : okQ v = true) (hL : 1 / 20 ≤ L.val) :
    Fit 1 (v.map upV) closed L.toRd := by
  have one : ∀ x : QD, (rndQ x.val = x.val ∧ 0 ≤ x.val ∧ x.val ≤ 1) →
      rnd53 x.toRd.val = x.toRd.val ∧ 0 ≤ x.toRd.val ∧ x.toRd.val ≤ 1 := fun x ⟨h1, h2, h3⟩ => by
    refine ⟨?_, ?_, ?_⟩
    · rw [QD.toRd_val, rnd53_rat, h1]
    · rw [QD.toRd_val]; exact_mod_cast h2
    · rw [QD.toRd_val]; exact_mod_cast h3
  have all : ∀ p ∈ v.map upV, Stored p ∧ Within 1 (Rd.vec p) ∧ 0 ≤ p.x.val ∧ 0 ≤ p.y.val ∧ 0 ≤ p.z.val := by
    intro p hp
    obtain ⟨q, hq, rfl⟩ := List.mem_map.mp hp
    have := List.all_eq_true.mp hok q hq
    simp only [V3.toList, List.all_cons, List.all_nil, Bool.and_true, Bool.and_eq_true, decide_eq_true_eq] at this
    obtain ⟨hx, hy, hz⟩ := this
    obtain ⟨a1, a2, a3⟩ := one _ hx
    obtain ⟨b1, b2, b3⟩ := one _ hy
    obtain ⟨c1, c2, c3⟩ := one _ hz
    refine ⟨⟨a1, b1, c1⟩, ⟨?_, ?_, ?_⟩, a2, b2, c2⟩
    · show |(q.x.toRd).val| ≤ 1
      rw [abs_of_nonneg a2]; exact a3
    · show |(q.y.toRd).val| ≤ 1
      rw [abs_of_nonneg b2]; exact b3
    · show |(q.z.toRd).val| ≤ 1
      rw [abs_of_nonneg c2]; exact c3
  have hL' : (1 : ℝ) / 20 ≤ L.toRd.val := by
    rw [QD.toRd_val]
    have := (Rat.cast_le (K := ℝ)).mpr hL
    push_cast at this
    exact this
  refine ⟨by simpa using hv, fun p hp => ⟨(all p hp).1, (all p hp).2.1⟩, by linarith, fun s hs => ?_⟩
  obtain ⟨i, hi⟩ := List.mem_iff_getElem?.mp hs
  obtain ⟨_, m1, m2⟩ := seg_start hi
  obtain ⟨_, ⟨w1, w2, w3⟩, p1, p2, p3⟩ := all _ m1
  obtain ⟨_, ⟨w4, w5, w6⟩, p4, p5, p6⟩ := all _ m2
  have hc : Close 1 (Rd.vec s.1) (Rd.vec s.2) := by
    simp only [Rd.vec, abs_le] at w1 w2 w3 w4 w5 w6
    refine ⟨?_, ?_, ?_⟩ <;> simp only [Rd.vec, abs_le] <;> constructor <;> linarith
  have := dist_close zero_le_one hc
  linarith

end FPa

/-- **C105.** A case meeting the hypotheses in double precision: a right angle, closed, cut at a tenth; 10, 10
and 15 parts. -/
theorem C105_witness : Fit 1 ([⟨⟨0⟩, ⟨0⟩, ⟨0⟩⟩, ⟨⟨1⟩, ⟨0⟩, ⟨0⟩⟩, ⟨⟨1⟩, ⟨1⟩, ⟨0⟩⟩].map upV) true tenthQ.toRd ∧
    (chainSegs ([⟨⟨0⟩, ⟨0⟩, ⟨0⟩⟩, ⟨⟨1⟩, ⟨0⟩, ⟨0⟩⟩, ⟨⟨1⟩, ⟨1⟩, ⟨0⟩⟩].map upV) true).map (count tenthQ.toRd) = [10, 10, 15] := by
  refine ⟨fit_up _ _ _ (by simp) (by decide +kernel) (by decide +kernel), ?_⟩
  rw [segs_up, List.map_map]
  simp only [Function.comp_def, count_up]
  decide +kernel

/-- **C105.** What C36 says of exact arithmetic fails in double precision: after a partition a segment may be
longer than the limit (the segment from the origin to `(1, 2^-30, 0)` is left whole with the limit 1). -/
theorem C105_exceeded : ∃ (v : List (V3 (Rd rnd53))) (L : Rd rnd53), Fit 1 v false L ∧
    (poly v false).partitionByLength L = (poly v false, .ok [0, 1]) ∧
    ∃ s ∈ chainSegs v false, L.val < dist3 (Rd.vec s.1) (Rd.vec s.2) := by
  have hf : Fit 1 (skewQ.map upV) false (⟨1⟩ : QD).toRd := fit_up _ _ _ (by simp [skewQ]) (by decide +kernel) (by decide +kernel)
  refine ⟨_, _, hf, ?_, ?_⟩
  · have hc : (chainSegs (skewQ.map upV) false).map (count (⟨1⟩ : QD).toRd) = [1] := by
      rw [segs_up, List.map_map]
      simp only [Function.comp_def, count_up]
      decide +kernel
    have hr : refine (ptsQ ⟨1⟩) skewQ false = skewQ := by decide +kernel
    rw [partition_rd rounding_rnd53 (by norm_num) hf, refine_up, hr, hc]
    rfl
  · refine ⟨upS (⟨⟨0⟩, ⟨0⟩, ⟨0⟩⟩, ⟨⟨1⟩, ⟨1 / 2 ^ 30⟩, ⟨0⟩⟩), ?_, ?_⟩
    · rw [segs_up]; simp [skewQ, chainSegs, circuit, pairs]
    · unfold dist3 len3
      apply Real.lt_sqrt_of_sq_lt
      simp only [vec3, Rd.vec, upS, upV, QD.toRd_val]
      norm_num

/-- **C105.** Nor does applying it again change nothing: the segment from the origin to `(1, 0, 0)` gets 11
vertices with the limit 0.1, and 13 when that is done again. -/
theorem C105_again : ∃ (v vs ws : List (V3 (Rd rnd53))) (L : Rd rnd53) (i j : List ℕ), Fit 1 v false L ∧ Fit 1 vs false L ∧
    (poly v false).partitionByLength L = (poly vs false, .ok i) ∧ vs.length = 11 ∧
    (poly vs false).partitionByLength L = (poly ws false, .ok j) ∧ ws.length = 13 := by
  have hf : Fit 1 (unitQ.map upV) false tenthQ.toRd := fit_up _ _ _ (by simp [unitQ]) (by decide +kernel) (by decide +kernel)
  have hr : (refine (ptsQ tenthQ) unitQ false).length = 11 := by decide +kernel
  have hf2 : Fit 1 ((refine (ptsQ tenthQ) unitQ false).map upV) false tenthQ.toRd :=
    fit_up _ _ _ (by intro h0; rw [h0] at hr; simp at hr) (by decide +kernel) (by decide +kernel)
  have hr2 : (refine (ptsQ tenthQ) (refine (ptsQ tenthQ) unitQ false) false).length = 13 := by decide +kernel
  have p1 := partition_rd rounding_rnd53 (by norm_num) hf
  have p2 := partition_rd rounding_rnd53 (by norm_num) hf2
  rw [refine_up] at p1 p2
  exact ⟨_, _, _, _, _, _, hf, hf2, p1, by simpa using hr, p2, by simpa using hr2⟩

end Blmath.Props
