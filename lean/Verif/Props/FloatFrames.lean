import Verif.Spec.Frames
import Verif.Props.FloatComposite
import Verif.Props.CoordinateManager

/-!
Property C143: coordinate frames in rounded arithmetic.
-/

namespace Blmath.Props
open Blmath.Geometry Blmath.Spec Blmath.Vx FC

variable {rnd : ℝ → ℝ} {u : ℝ} {β : Type}

namespace FF

/-- an array of points, or a mesh carrying the points as its `v` -/
def rcarrier (rest : Option β) (ps : List (V3 (Rd rnd))) : PointsOrMesh (Rd rnd) β :=
  match rest with
  | none => .points (rpts ps)
  | some r => .mesh (some (rpts ps)) r

/-- matrices given to the calls have the last row (0, 0, 0, 1) -/
def ExactProgram (ops : List (MOp (Rd rnd) β)) : Prop := ∀ op, MOp.transform op ∈ ops → OpExact op

/-- tags point into the stack; matrices have the last row (0, 0, 0, 1) -/
def MgrExact (st : CoordMgr (Rd rnd) β) : Prop :=
  (∀ t ∈ st.transform, PairExact t) ∧ ∀ name i, st.tags.get? name = some i → i ≤ st.transform.length

theorem mstep_exact (h : Rounding rnd u) {inv} (hinv : ∀ a b, RowExact a → inv a = .ok b → RowExact b) (svd : Svd3 (Rd rnd))
    {st : CoordMgr (Rd rnd) β} (hs : MgrExact st) (op : MOp (Rd rnd) β) (hop : ∀ o, op = .transform o → OpExact o) :
    MgrExact (st.step inv svd op) := by
  cases op with
  | transform o =>
    refine ⟨step_exact h hinv svd hs.1 o (hop o rfl), ?_⟩
    intro name i hi
    have := hs.2 name i hi
    show i ≤ (stepT inv svd st.transform o).length
    rw [stepT_append, List.length_append]; omega
  | tag name =>
    refine ⟨hs.1, ?_⟩
    intro n i hi
    simp only [CoordMgr.step, CoordMgr.tagAs, Dict.get?_set] at hi ⊢
    split at hi
    · cases hi; exact le_rfl
    · exact hs.2 n i hi
  | set name x =>
    simp only [CoordMgr.step, CoordMgr.setAttr]
    split <;> exact hs

theorem mrun_exact (h : Rounding rnd u) {inv} (hinv : ∀ a b, RowExact a → inv a = .ok b → RowExact b) (svd : Svd3 (Rd rnd))
    (ops : List (MOp (Rd rnd) β)) (hops : ExactProgram ops) (st : CoordMgr (Rd rnd) β) (hs : MgrExact st) : MgrExact (st.run inv svd ops) := by
  induction ops generalizing st with
  | nil => exact hs
  | cons op ops ih =>
    refine ih (fun o ho => hops o (List.mem_cons_of_mem _ ho)) _ (mstep_exact h hinv svd hs op ?_)
    rintro o rfl
    exact hops o List.mem_cons_self

theorem init_exact : MgrExact (CoordMgr.init : CoordMgr (Rd rnd) β) := ⟨by simp [CoordMgr.init], by simp [CoordMgr.init]⟩

theorem stretch_map {γ δ : Type} (f : γ → δ) (l : List γ) (i j : ℕ) : stretch (l.map f) i j = (stretch l i j).map f := by
  simp [stretch, List.map_take, List.map_drop]

theorem stretch_length {γ : Type} (l : List γ) {i j : ℕ} (hi : i ≤ l.length) (hj : j ≤ l.length) :
    (stretch l i j).length = max i j - min i j := by
  simp [stretch]
  omega

theorem gam_zero : gam u 0 = 0 := by simp [gam]

theorem move_err (h : Rounding rnd u) {st : CoordMgr (Rd rnd) β} (hs : MgrExact st) {i j : ℕ} (hi : i ≤ st.transform.length)
    (hj : j ≤ st.transform.length) (hk : (4 * (max i j - min i j) + 4 : ℕ) * u < 1) (ps : List (V3 (Rd rnd))) :
    ∃ qs, st.move (rpts ps) i j = .ok (rpts qs) ∧ List.Forall₂ (fun p q => Within (gam u (4 * (max i j - min i j)))
      (carried (absolutely st.transform) i j (absv p)) (Rd.vec q) (carried (exactly st.transform) i j (Rd.vec p))) ps qs := by
  unfold CoordMgr.move
  by_cases hij : i = j
  · subst hij
    refine ⟨ps, by rw [if_pos rfl], ?_⟩
    rw [List.forall₂_same]
    intro p _
    have e : ∀ (ts : Composite ℝ) q, carried ts i i q = q := by
      intro ts q
      have : stretch ts i i = [] := by simp [stretch]
      simp [carried, this]
    rw [e, e]
    simp [Within, gam_zero]
  rw [if_neg hij]
  by_cases hlt : i < j
  · rw [if_pos hlt]
    have es : ∀ {γ : Type} (l : List γ), l.length = st.transform.length → sel l (some (some (i : ℤ), some (j : ℤ))) = stretch l i j := by
      intro γ l hl
      show pySlice l (i : ℤ) (j : ℤ) = _
      rw [pySlice_nat l (by omega) (by omega), stretch, max_eq_right hlt.le, min_eq_left hlt.le]
    have el := stretch_length st.transform hi hj
    obtain ⟨qs, h1, h2⟩ := call_err h hs.1 ps (some (some (i : ℤ), some (j : ℤ))) false (by rw [es _ rfl, el]; exact hk)
    refine ⟨qs, h1, h2.imp fun p q hpq => ?_⟩
    rw [es _ rfl, es _ (by simp [exactly]), es _ (by simp [absolutely]), el, max_eq_right (by omega : 1 ≤ max i j - min i j)] at hpq
    simpa [carried, image, Within, Rd.vec, not_lt.mpr hlt.le] using hpq
  · rw [if_neg hlt]
    have hgt : j < i := by omega
    have es : ∀ {γ : Type} (l : List γ), l.length = st.transform.length → sel l (some (some (j : ℤ), some (i : ℤ))) = stretch l i j := by
      intro γ l hl
      show pySlice l (j : ℤ) (i : ℤ) = _
      rw [pySlice_nat l (by omega) (by omega), stretch, max_eq_left hgt.le, min_eq_right hgt.le]
    have el := stretch_length st.transform hi hj
    obtain ⟨qs, h1, h2⟩ := call_err h hs.1 ps (some (some (j : ℤ), some (i : ℤ))) true (by rw [es _ rfl, el]; exact hk)
    refine ⟨qs, h1, h2.imp fun p q hpq => ?_⟩
    rw [es _ rfl, es _ (by simp [exactly]), es _ (by simp [absolutely]), el, max_eq_right (by omega : 1 ≤ max i j - min i j)] at hpq
    simpa [carried, image, Within, Rd.vec, hgt] using hpq

theorem do_err (h : Rounding rnd u) {st : CoordMgr (Rd rnd) β} (hs : MgrExact st) (ver) {a b : String} {i j : ℕ}
    (ha : st.tags.get? a = some i) (hb : st.tags.get? b = some j) (hk : (4 * (max i j - min i j) + 4 : ℕ) * u < 1) (rest : Option β)
    (ps : List (V3 (Rd rnd))) :
    ∃ qs, st.doTransform ver (rcarrier rest ps) a b = .ok (rcarrier rest qs) ∧ List.Forall₂ (fun p q => Within (gam u (4 * (max i j - min i j)))
      (carried (absolutely st.transform) i j (absv p)) (Rd.vec q) (carried (exactly st.transform) i j (Rd.vec p))) ps qs := by
  obtain ⟨qs, h1, h2⟩ := move_err h hs (hs.2 a i ha) (hs.2 b j hb) hk ps
  refine ⟨qs, ?_, h2⟩
  cases rest <;> simp [rcarrier, CoordMgr.doTransform, CoordMgr.index, ha, hb, h1]

/-! ### how errors and sizes pass through further transforms -/

/-- near, and not larger -/
def Bounded (c : ℝ) (s x y : V3 ℝ) : Prop := Within c s x y ∧ |y.x| ≤ s.x ∧ |y.y| ≤ s.y ∧ |y.z| ≤ s.z

theorem lin_bound {a0 a1 a2 a3 x0 x1 x2 y0 y1 y2 s0 s1 s2 c : ℝ} (hc : 0 ≤ c) (w0 : |x0 - y0| ≤ c * s0) (w1 : |x1 - y1| ≤ c * s1)
    (w2 : |x2 - y2| ≤ c * s2) (b0 : |y0| ≤ s0) (b1 : |y1| ≤ s1) (b2 : |y2| ≤ s2) :
    |(a0 * x0 + a1 * x1 + a2 * x2 + a3) - (a0 * y0 + a1 * y1 + a2 * y2 + a3)| ≤ c * (|a0| * s0 + |a1| * s1 + |a2| * s2 + |a3|) ∧
    |a0 * y0 + a1 * y1 + a2 * y2 + a3| ≤ |a0| * s0 + |a1| * s1 + |a2| * s2 + |a3| := by
  have key : ∀ a b t : ℝ, |b| ≤ t → |a * b| ≤ |a| * t := fun a b t hb => by
    rw [abs_mul]; exact mul_le_mul_of_nonneg_left hb (abs_nonneg a)
  constructor
  · have e : (a0 * x0 + a1 * x1 + a2 * x2 + a3) - (a0 * y0 + a1 * y1 + a2 * y2 + a3) = a0 * (x0 - y0) + a1 * (x1 - y1) + a2 * (x2 - y2) := by ring
    rw [e]
    have h1 := abs_add_three (a0 * (x0 - y0)) (a1 * (x1 - y1)) (a2 * (x2 - y2))
    have k0 := key a0 _ _ w0
    have k1 := key a1 _ _ w1
    have k2 := key a2 _ _ w2
    have k3 := mul_nonneg hc (abs_nonneg a3)
    nlinarith
  · have h1 := abs_add_three (a0 * y0) (a1 * y1) (a2 * y2)
    have h2 := abs_add_le (a0 * y0 + a1 * y1 + a2 * y2) a3
    have k0 := key a0 _ _ b0
    have k1 := key a1 _ _ b1
    have k2 := key a2 _ _ b2
    linarith

theorem aff_bound (m : Mat 4 4 (Rd rnd)) {c : ℝ} (hc : 0 ≤ c) {s x y : V3 ℝ} (hb : Bounded c s x y) :
    Bounded c (affMap (sizes m) s) (affMap (vals m) x) (affMap (vals m) y) := by
  obtain ⟨⟨w0, w1, w2⟩, b0, b1, b2⟩ := hb
  have r := fun i : Fin 4 => lin_bound (a0 := (m i 0).val) (a1 := (m i 1).val) (a2 := (m i 2).val) (a3 := (m i 3).val) hc w0 w1 w2 b0 b1 b2
  exact ⟨⟨(r 0).1, (r 1).1, (r 2).1⟩, (r 0).2, (r 1).2, (r 2).2⟩

theorem foldl_bound (ts : Composite (Rd rnd)) {c : ℝ} (hc : 0 ≤ c) : ∀ {s x y : V3 ℝ}, Bounded c s x y →
    Bounded c ((absolutely ts).foldl (fun q t => affMap t.1 q) s) ((exactly ts).foldl (fun q t => affMap t.1 q) x)
      ((exactly ts).foldl (fun q t => affMap t.1 q) y) := by
  induction ts with
  | nil => exact fun hb => hb
  | cons t ts ih => exact fun hb => ih (aff_bound t.1 hc hb)

theorem foldr_bound (ts : Composite (Rd rnd)) {c : ℝ} (hc : 0 ≤ c) {s x y : V3 ℝ} (hb : Bounded c s x y) :
    Bounded c ((absolutely ts).foldr (fun t q => affMap t.2 q) s) ((exactly ts).foldr (fun t q => affMap t.2 q) x)
      ((exactly ts).foldr (fun t q => affMap t.2 q) y) := by
  induction ts with
  | nil => exact hb
  | cons t ts ih => exact aff_bound t.2 hc ih

theorem carried_bound (ts : Composite (Rd rnd)) (i j : ℕ) {c : ℝ} (hc : 0 ≤ c) {s x y : V3 ℝ} (hb : Bounded c s x y) :
    Bounded c (carried (absolutely ts) i j s) (carried (exactly ts) i j x) (carried (exactly ts) i j y) := by
  have e1 : stretch (absolutely ts) i j = absolutely (stretch ts i j) := stretch_map _ _ _ _
  have e2 : stretch (exactly ts) i j = exactly (stretch ts i j) := stretch_map _ _ _ _
  unfold carried
  rw [e1, e2]
  split
  · exact foldr_bound _ hc hb
  · exact foldl_bound _ hc hb

/-- `s` at most `c` times `t`, neither negative -/
def Below (c : ℝ) (s t : V3 ℝ) : Prop := 0 ≤ s.x ∧ 0 ≤ s.y ∧ 0 ≤ s.z ∧ s.x ≤ c * t.x ∧ s.y ≤ c * t.y ∧ s.z ≤ c * t.z

theorem aff_below (m : Mat 4 4 (Rd rnd)) {c : ℝ} (hc : 1 ≤ c) {s t : V3 ℝ} (hb : Below c s t) :
    Below c (affMap (sizes m) s) (affMap (sizes m) t) := by
  obtain ⟨p0, p1, p2, w0, w1, w2⟩ := hb
  have r : ∀ i : Fin 4, 0 ≤ |(m i 0).val| * s.x + |(m i 1).val| * s.y + |(m i 2).val| * s.z + |(m i 3).val| ∧
      |(m i 0).val| * s.x + |(m i 1).val| * s.y + |(m i 2).val| * s.z + |(m i 3).val| ≤
        c * (|(m i 0).val| * t.x + |(m i 1).val| * t.y + |(m i 2).val| * t.z + |(m i 3).val|) := by
    intro i
    refine ⟨by positivity, ?_⟩
    have k0 := mul_le_mul_of_nonneg_left w0 (abs_nonneg (m i 0).val)
    have k1 := mul_le_mul_of_nonneg_left w1 (abs_nonneg (m i 1).val)
    have k2 := mul_le_mul_of_nonneg_left w2 (abs_nonneg (m i 2).val)
    have k3 := mul_le_mul_of_nonneg_right hc (abs_nonneg (m i 3).val)
    nlinarith
  exact ⟨(r 0).1, (r 1).1, (r 2).1, (r 0).2, (r 1).2, (r 2).2⟩

theorem carried_below (ts : Composite (Rd rnd)) (i j : ℕ) {c : ℝ} (hc : 1 ≤ c) {s t : V3 ℝ} (hb : Below c s t) :
    Below c (carried (absolutely ts) i j s) (carried (absolutely ts) i j t) := by
  have e1 : stretch (absolutely ts) i j = absolutely (stretch ts i j) := stretch_map _ _ _ _
  unfold carried
  rw [e1]
  generalize stretch ts i j = l
  split
  · induction l with
    | nil => exact hb
    | cons t ts ih => exact aff_below t.2 hc ih
  · clear e1
    induction l generalizing s t with
    | nil => exact hb
    | cons m l ih => exact ih (aff_below m.1 hc hb)

theorem gam_nonneg' (h : Rounding rnd u) {k m : ℕ} (hk : (m : ℝ) * u < 1) (hkm : k ≤ m) : 0 ≤ gam u k := by
  have : (k : ℝ) * u ≤ m * u := mul_le_mul_of_nonneg_right (by exact_mod_cast hkm) h.nonneg
  exact div_nonneg (mul_nonneg (Nat.cast_nonneg _) h.nonneg) (by linarith)

/-- the error of two moves, one after the other -/
theorem two_moves (ts : Composite (Rd rnd)) (i j k : ℕ) {g1 g2 : ℝ} (hg1 : 0 ≤ g1) (hg2 : 0 ≤ g2) {p q r : V3 (Rd rnd)}
    (h1 : Within g1 (carried (absolutely ts) i j (absv p)) (Rd.vec q) (carried (exactly ts) i j (Rd.vec p)))
    (h2 : Within g2 (carried (absolutely ts) j k (absv q)) (Rd.vec r) (carried (exactly ts) j k (Rd.vec q))) :
    Within ((1 + g1) * (1 + g2) - 1) (carried (absolutely ts) j k (carried (absolutely ts) i j (absv p))) (Rd.vec r)
      (carried (exactly ts) j k (carried (exactly ts) i j (Rd.vec p))) := by
  have b0 : Bounded 0 (absv p) (Rd.vec p) (Rd.vec p) := by
    simp [Bounded, Within, absv, Rd.vec]
  obtain ⟨-, c0, c1, c2⟩ := carried_bound ts i j le_rfl b0
  have b1 : Bounded g1 (carried (absolutely ts) i j (absv p)) (Rd.vec q) (carried (exactly ts) i j (Rd.vec p)) := ⟨h1, c0, c1, c2⟩
  obtain ⟨⟨d0, d1, d2⟩, -⟩ := carried_bound ts j k hg1 b1
  have bb : Below (1 + g1) (absv q) (carried (absolutely ts) i j (absv p)) := by
    obtain ⟨w0, w1, w2⟩ := h1
    have tri : ∀ a b c d : ℝ, |a - b| ≤ g1 * c → |b| ≤ c → |a| ≤ (1 + g1) * c := by
      intro a b c d h1 h2
      have := abs_add_le (a - b) b
      rw [sub_add_cancel] at this
      linarith
    exact ⟨abs_nonneg _, abs_nonneg _, abs_nonneg _, tri _ _ _ 0 w0 c0, tri _ _ _ 0 w1 c1, tri _ _ _ 0 w2 c2⟩
  obtain ⟨-, -, -, e0, e1, e2⟩ := carried_below ts j k (by linarith) bb
  obtain ⟨f0, f1, f2⟩ := h2
  have fin : ∀ a b c s t : ℝ, |a - b| ≤ g2 * s → |b - c| ≤ g1 * t → s ≤ (1 + g1) * t → |a - c| ≤ ((1 + g1) * (1 + g2) - 1) * t := by
    intro a b c s t h1 h2 h3
    have := abs_sub_le a b c
    have := mul_le_mul_of_nonneg_left h3 hg2
    nlinarith
  exact ⟨fin _ _ _ _ _ f0 d0 e0, fin _ _ _ _ _ f1 d1 e1, fin _ _ _ _ _ f2 d2 e2⟩

theorem stretch_split {γ : Type} (l : List γ) {i j k : ℕ} (hij : i ≤ j) (hjk : j ≤ k) : stretch l i k = stretch l i j ++ stretch l j k := by
  simp only [stretch, max_eq_right hij, max_eq_right hjk, max_eq_right (hij.trans hjk), min_eq_left hij, min_eq_left hjk, min_eq_left (hij.trans hjk)]
  conv_lhs => rw [take_split l hjk, List.drop_append]
  rcases Nat.le_total l.length j with hl | hl
  · have e1 : l.take j = l := List.take_of_length_le hl
    rw [e1]
    have : (l.take k).drop j = [] := List.drop_eq_nil_of_le (by simp; omega)
    rw [this]; simp
  · have : i - (l.take j).length = 0 := by simp; omega
    rw [this]; rfl

theorem stretch_comm {γ : Type} (l : List γ) (i j : ℕ) : stretch l i j = stretch l j i := by
  simp [stretch, max_comm, min_comm]

/-- along the way, or all the way back -/
theorem carried_moved (ts : Composite ℝ) {i j k : ℕ} (h : i ≤ j ∧ j ≤ k ∨ k ≤ j ∧ j ≤ i) (p : V3 ℝ) :
    carried ts j k (carried ts i j p) = carried ts i k p := by
  have nil : ∀ i q, carried ts i i q = q := by
    intro i q
    have : stretch ts i i = [] := by simp [stretch]
    simp [carried, this]
  rcases h with ⟨h1, h2⟩ | ⟨h1, h2⟩
  · simp only [carried, not_lt.mpr h1, not_lt.mpr h2, not_lt.mpr (h1.trans h2), if_false, stretch_split ts h1 h2, List.foldl_append]
  · rcases h1.eq_or_lt with rfl | h1'
    · rw [nil]
    rcases h2.eq_or_lt with rfl | h2'
    · rw [nil]
    simp only [carried, h1', h2', h1'.trans h2', if_true]
    rw [stretch_comm ts i k, stretch_comm ts i j, stretch_comm ts j k, stretch_split ts h1 h2, List.foldr_append]

theorem carried_carry {ts : Composite ℝ} (h : ∀ t ∈ ts, PairOk t) (i j : ℕ) (p : V3 ℝ) : carried ts i j p = carry ts i j p := by
  unfold carried
  split
  · rename_i hlt
    rw [stretch, max_eq_left hlt.le, min_eq_right hlt.le]
    exact carry_rev h hlt.le p
  · rename_i hlt
    rw [stretch, max_eq_right (not_lt.mp hlt), min_eq_left (not_lt.mp hlt)]
    exact carry_fwd h (not_lt.mp hlt) p

/-- the stored inverses are inverses, not counting rounding -/
def Undoes (st : CoordMgr (Rd rnd) β) : Prop := ∀ t ∈ exactly st.transform, PairOk t

theorem run_translations (h : Rounding rnd u) (inv) (svd : Svd3 (Rd rnd)) (ops : List (MOp (Rd rnd) β))
    (hops : ∀ op, MOp.transform op ∈ ops → ∃ v, op = .translate v) (st : CoordMgr (Rd rnd) β) (hs : Undoes st) :
    Undoes (st.run inv svd ops) := by
  induction ops generalizing st with
  | nil => exact hs
  | cons op ops ih =>
    refine ih (fun o ho => hops o (List.mem_cons_of_mem _ ho)) _ ?_
    cases op with
    | transform o =>
      obtain ⟨v, rfl⟩ := hops o List.mem_cons_self
      show ∀ t ∈ exactly (stepT inv svd st.transform (.translate v)), PairOk t
      rw [stepT_append]
      intro t ht
      rw [exactly, List.map_append, List.mem_append] at ht
      rcases ht with ht | ht
      · exact hs t ht
      · have e : stepT inv svd [] (.translate v) = [(translation44 v, translation44 (-v))] := rfl
        rw [e, List.map_singleton, List.mem_singleton] at ht
        subst ht
        refine pairOk_of (affine_vals (exact_translation44 h v)) ?_
        ext i j
        fin_cases i <;> fin_cases j <;>
          simp [Matrix.mul_apply, Fin.sum_univ_four, vals, translation44, h.zero, h.one]
    | tag n => exact hs
    | set n x =>
      simp only [CoordMgr.step, CoordMgr.setAttr]
      split <;> exact hs

end FF

open FF

/-- **C143.** After any program, moving points or a mesh from one tag to another never raises, whichever was set first.  Each coordinate of
the result differs from the exact image of the point under the stored transforms between the tags (or their stored inverses, last one first) by
at most four roundings for each of them, measured against the image of the absolute values. -/
theorem C143_move (h : Rounding rnd u) (inv) (hinv : ∀ a b, RowExact a → inv a = .ok b → RowExact b) (svd : Svd3 (Rd rnd)) (ver : PyVer)
    (ops : List (MOp (Rd rnd) β)) (hops : ExactProgram ops) (a b : String) (rest : Option β) (ps : List (V3 (Rd rnd))) :
    let st := (CoordMgr.init : CoordMgr (Rd rnd) β).run inv svd ops
    ∀ i j, st.tags.get? a = some i → st.tags.get? b = some j → (4 * (max i j - min i j) + 4 : ℕ) * u < 1 →
    ∃ qs, st.doTransform ver (rcarrier rest ps) a b = .ok (rcarrier rest qs) ∧ List.Forall₂ (fun p q => Within (gam u (4 * (max i j - min i j)))
      (carried (absolutely st.transform) i j (absv p)) (Rd.vec q) (carried (exactly st.transform) i j (Rd.vec p))) ps qs := by
  intro st i j ha hb hk
  exact do_err h (mrun_exact h hinv svd ops hops _ init_exact) ver ha hb hk rest ps

/-- **C143.** Between tags of the same state nothing is rounded: the result is what was given, whatever it is. -/
theorem C143_same (ver : PyVer) (st : CoordMgr (Rd rnd) β) (a b : String) (i : ℕ) (ha : st.tags.get? a = some i) (hb : st.tags.get? b = some i)
    (x : PointsOrMesh (Rd rnd) β) : st.doTransform ver x a b = .ok x := by
  cases x with
  | points v => simp [CoordMgr.doTransform, CoordMgr.index, ha, hb, CoordMgr.move]
  | mesh v r => cases v <;> simp [CoordMgr.doTransform, CoordMgr.index, ha, hb, CoordMgr.move]

/-- **C143.** Two moves, from `a` to `b` and from `b` to `c`: the result is near the exact image under one and the other, by the two relative
errors combined; and if `b` was set between `a` and `c`, this is the exact image under the transforms between `a` and `c`, and the sizes agree as
well, so that going in one step or in two makes a difference of at most the sum of both bounds. -/
theorem C143_path (h : Rounding rnd u) (inv) (hinv : ∀ a b, RowExact a → inv a = .ok b → RowExact b) (svd : Svd3 (Rd rnd)) (ver : PyVer)
    (ops : List (MOp (Rd rnd) β)) (hops : ExactProgram ops) (a b c : String) (rest : Option β) (ps : List (V3 (Rd rnd))) :
    let st := (CoordMgr.init : CoordMgr (Rd rnd) β).run inv svd ops
    ∀ i j k, st.tags.get? a = some i → st.tags.get? b = some j → st.tags.get? c = some k →
    (4 * (max i j - min i j) + 4 : ℕ) * u < 1 → (4 * (max j k - min j k) + 4 : ℕ) * u < 1 →
    let e := (1 + gam u (4 * (max i j - min i j))) * (1 + gam u (4 * (max j k - min j k))) - 1
    ∃ qs rs, st.doTransform ver (rcarrier rest ps) a b = .ok (rcarrier rest qs) ∧
      st.doTransform ver (rcarrier rest qs) b c = .ok (rcarrier rest rs) ∧
      List.Forall₂ (fun p r => Within e (carried (absolutely st.transform) j k (carried (absolutely st.transform) i j (absv p))) (Rd.vec r)
        (carried (exactly st.transform) j k (carried (exactly st.transform) i j (Rd.vec p)))) ps rs ∧
      (i ≤ j ∧ j ≤ k ∨ k ≤ j ∧ j ≤ i → List.Forall₂ (fun p r => Within e (carried (absolutely st.transform) i k (absv p)) (Rd.vec r)
        (carried (exactly st.transform) i k (Rd.vec p))) ps rs) ∧
      (Undoes st → List.Forall₂ (fun p r => Within e (carried (absolutely st.transform) j k (carried (absolutely st.transform) i j (absv p)))
        (Rd.vec r) (carried (exactly st.transform) i k (Rd.vec p)) ∧ (i = k → carried (exactly st.transform) i k (Rd.vec p) = Rd.vec p)) ps rs) := by
  intro st i j k ha hb hc h1 h2 e
  have hs : MgrExact st := mrun_exact h hinv svd ops hops _ init_exact
  obtain ⟨qs, q1, q2⟩ := do_err h hs ver ha hb h1 rest ps
  obtain ⟨rs, r1, r2⟩ := do_err h hs ver hb hc h2 rest qs
  have g1 : 0 ≤ gam u (4 * (max i j - min i j)) := gam_nonneg' h h1 (by omega)
  have g2 : 0 ≤ gam u (4 * (max j k - min j k)) := gam_nonneg' h h2 (by omega)
  have key : List.Forall₂ (fun p r => Within e (carried (absolutely st.transform) j k (carried (absolutely st.transform) i j (absv p))) (Rd.vec r)
        (carried (exactly st.transform) j k (carried (exactly st.transform) i j (Rd.vec p)))) ps rs := by
    clear q1 r1
    induction q2 generalizing rs with
    | nil => cases r2; exact .nil
    | cons hp _ ih =>
      cases r2 with
      | cons hr hrs => exact .cons (two_moves st.transform i j k g1 g2 hp hr) (ih _ hrs)
  refine ⟨qs, rs, q1, r1, key, fun hm => key.imp fun p r hpr => ?_, fun hu => key.imp fun p r hpr => ⟨?_, fun hik => ?_⟩⟩
  · rwa [carried_moved _ hm, carried_moved _ hm] at hpr
  · rwa [carried_carry hu, carried_carry hu, carry_carry hu, ← carried_carry hu] at hpr
  · subst hik
    rw [carried_carry hu, carry_self hu]

/-- **C143.** Translations are undone by their stored inverses, rounding apart: for programs with no other transforms `C143_path` bounds the
difference whatever the order of the three tags, there and back included. -/
theorem C143_translations (h : Rounding rnd u) (inv) (svd : Svd3 (Rd rnd)) (ops : List (MOp (Rd rnd) β))
    (hops : ∀ op, MOp.transform op ∈ ops → ∃ v, op = .translate v) :
    ExactProgram ops ∧ Undoes ((CoordMgr.init : CoordMgr (Rd rnd) β).run inv svd ops) := by
  refine ⟨fun op hop => ?_, run_translations h inv svd ops hops _ (by simp [Undoes, CoordMgr.init, exactly])⟩
  obtain ⟨v, rfl⟩ := hops op hop
  trivial

/-- **C143.** Frames are not independent of the path in double precision: a point set as `source` at x = 1, carried to a frame 2^60 away and back, is
at 0, although moving it from `source` to `source` leaves it at 1. -/
theorem C143_lost (inv) (svd : Svd3 (Rd rnd53)) (ver : PyVer) :
    let st := (CoordMgr.init : CoordMgr (Rd rnd53) Unit).run inv svd [.tag "source", .transform (.translate ⟨⟨2 ^ 60⟩, ⟨0⟩, ⟨0⟩⟩), .tag "far"]
    ∃ qs, st.doTransform ver (.points (rpts [⟨⟨1⟩, ⟨0⟩, ⟨0⟩⟩])) "source" "far" = .ok (.points (rpts qs)) ∧
      st.doTransform ver (.points (rpts qs)) "far" "source" = .ok (.points (rpts [⟨⟨0⟩, ⟨0⟩, ⟨0⟩⟩])) ∧
      st.doTransform ver (.points (rpts [⟨⟨1⟩, ⟨0⟩, ⟨0⟩⟩])) "source" "source" = .ok (.points (rpts [⟨⟨1⟩, ⟨0⟩, ⟨0⟩⟩])) := by
  intro st
  obtain ⟨qs, h1, h2⟩ := C97_lost inv
  have ha : st.tags.get? "source" = some 0 := by
    simp [st, CoordMgr.run, CoordMgr.step, CoordMgr.tagAs, CoordMgr.init, Dict.get?_set]
  have hb : st.tags.get? "far" = some 1 := by
    simp [st, CoordMgr.run, CoordMgr.step, CoordMgr.tagAs, CoordMgr.init, Dict.get?_set, stepT, translateT, append4]
  have ht : st.transform = (translateT inv [] ⟨⟨2 ^ 60⟩, ⟨0⟩, ⟨0⟩⟩).1 := rfl
  have hm : ∀ x rev, callT st.transform x (some (some ((0 : ℕ) : ℤ), some ((1 : ℕ) : ℤ))) rev =
      callT (translateT inv [] ⟨⟨2 ^ 60⟩, ⟨0⟩, ⟨0⟩⟩).1 x none rev := by
    intro x rev
    rfl
  refine ⟨qs, ?_, ?_, C143_same ver st _ _ 0 ha ha _⟩
  · have : st.move (rpts [⟨⟨1⟩, ⟨0⟩, ⟨0⟩⟩]) 0 1 = .ok (rpts qs) := by
      rw [CoordMgr.move, if_neg (by norm_num), if_pos (by norm_num), hm, h1]
    simp [CoordMgr.doTransform, CoordMgr.index, ha, hb, this]
  · have : st.move (rpts qs) 1 0 = .ok (rpts [⟨⟨0⟩, ⟨0⟩, ⟨0⟩⟩]) := by
      rw [CoordMgr.move, if_neg (by norm_num), if_neg (by norm_num), hm, h2]
    simp [CoordMgr.doTransform, CoordMgr.index, ha, hb, this]

/-- The example of the class comment in double precision: three frames, with two transforms between the first and the second and one between the
second and the third. -/
theorem C143_witness (inv) (svd : Svd3 (Rd rnd53)) :
    let ops : List (MOp (Rd rnd53) Unit) := [.tag "source", .transform (.translate ⟨⟨1⟩, ⟨2⟩, ⟨3⟩⟩), .transform (.scale ⟨2⟩),
      .tag "floored_and_scaled", .transform (.translate ⟨⟨0⟩, ⟨-4⟩, ⟨0⟩⟩), .tag "centered_at_origin"]
    let st := (CoordMgr.init : CoordMgr (Rd rnd53) Unit).run inv svd ops
    Rounding rnd53 ((1 / 2 ^ 53)) ∧ ExactProgram ops ∧ st.tags.get? "source" = some 0 ∧ st.tags.get? "floored_and_scaled" = some 2 ∧
      st.tags.get? "centered_at_origin" = some 3 ∧ ((4 * (max 0 3 - min 0 3) + 4 : ℕ) : ℝ) * (1 / 2 ^ 53) < 1 := by
  have hs : (scaleT inv [(translation44 ⟨⟨1⟩, ⟨2⟩, ⟨3⟩⟩, translation44 (-⟨⟨1⟩, ⟨2⟩, ⟨3⟩⟩))] (⟨2⟩ : Rd rnd53)).1.length = 2 := by
    unfold scaleT
    rw [if_neg]
    · rfl
    · simp [Rd.le_iff, rounding_rnd53.zero]
  intro ops st
  have hst : st.tags = Dict.set (Dict.set (Dict.set [] "source" 0) "floored_and_scaled" 2) "centered_at_origin" 3 := by
    obtain ⟨l, hl⟩ : ∃ l, l = (scaleT inv [(translation44 ⟨⟨1⟩, ⟨2⟩, ⟨3⟩⟩, translation44 (-⟨⟨1⟩, ⟨2⟩, ⟨3⟩⟩))] (⟨2⟩ : Rd rnd53)).1 := ⟨_, rfl⟩
    have : st.tags = Dict.set (Dict.set (Dict.set [] "source" 0) "floored_and_scaled" l.length) "centered_at_origin"
      (translateT inv l ⟨⟨0⟩, ⟨-4⟩, ⟨0⟩⟩).1.length := by rw [hl]; rfl
    rw [← hl] at hs
    have e : (translateT inv l ⟨⟨0⟩, ⟨-4⟩, ⟨0⟩⟩).1.length = l.length + 1 := by
      show (l ++ [_]).length = _
      simp
    rw [this, e, hs]
  refine ⟨rounding_rnd53, ?_, ?_, ?_, ?_, by norm_num⟩
  · intro op hop
    simp only [ops, List.mem_cons, List.not_mem_nil, reduceCtorEq, false_or, or_false, MOp.transform.injEq] at hop
    rcases hop with rfl | rfl | rfl <;> trivial
  · rw [hst]; decide
  · rw [hst]; decide
  · rw [hst]; decide

end Blmath.Props
