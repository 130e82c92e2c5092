import Verif.Props.FloatError
import Verif.Proofs.Units
import Verif.Proofs.Polyline
import Verif.Model.Box
import Verif.Model.Triangle

/-!
Properties C82, C83 and C84: unit conversions; distances and lengths; boxes and barycentric coordinates in rounded
arithmetic.
-/

namespace Blmath.Props
open Blmath.Spec Blmath.Vx Blmath.Geometry Blmath.Units Blmath.Proofs
variable {rnd : ℝ → ℝ} {u : ℝ}

/-! ### C82: units -/

/-- one entry of the table in rounded arithmetic and the same entry in exact arithmetic -/
def EntryNear (u : ℝ) (a : String × String × Rd rnd) (b : String × String × ℝ) : Prop :=
  a.1 = b.1 ∧ a.2.1 = b.2.1 ∧ ∃ t, Near u 2 t ∧ a.2.2.val = b.2.2 * t

theorem table_near (h : Rounding rnd u) : List.Forall₂ (EntryNear u) (table (α := Rd rnd)) (table (α := ℝ)) := by
  have h0 := h.nonneg
  have h1 := h.lt_one
  have n12 : ∀ {t}, Near u 1 t → Near u 2 t := fun ht => ht.mono h0 h1 (by norm_num)
  have one2 : Near u 2 1 := near_one h 2
  have r1 : rnd 1 = 1 := h.one
  have ri : ∀ k : ℤ, |k| ≤ 2 ^ 53 → rnd k = k := h.int
  have r1000 : rnd 1000 = 1000 := by simpa using ri 1000 (by norm_num)
  have r100 : rnd 100 = 100 := by simpa using ri 100 (by norm_num)
  have r180 : rnd 180 = 180 := by simpa using ri 180 (by norm_num)
  have r60 : rnd 60 = 60 := by simpa using ri 60 (by norm_num)
  have r24 : rnd 24 = 24 := by simpa using ri 24 (by norm_num)
  have r3600 : rnd 3600 = 3600 := by simpa using ri 3600 (by norm_num)
  have r86400 : rnd 86400 = 86400 := by simpa using ri 86400 (by norm_num)
  -- the kinds of entries
  have kOne : ∃ t, Near u 2 t ∧ (Num.lit 1 : Rd rnd).val = (Num.lit 1 : ℝ) * t :=
    ⟨1, one2, by simp [r1]⟩
  have kLit : ∀ q : ℚ, ∃ t, Near u 2 t ∧ (Num.lit q : Rd rnd).val = (Num.lit q : ℝ) * t := by
    intro q
    obtain ⟨t, ht, e⟩ := h.factor (q : ℝ)
    exact ⟨t, n12 ht, by simpa using e⟩
  have kDiv : ∀ q : ℚ, ∃ t, Near u 2 t ∧ (Num.lit 1 / Num.lit q : Rd rnd).val = (Num.lit 1 / Num.lit q : ℝ) * t := by
    intro q
    obtain ⟨t, ht, e⟩ := h.factor (q : ℝ)
    obtain ⟨d, hd, ed⟩ := h.factor (1 / ((q : ℝ) * t))
    refine ⟨t⁻¹ * d, (ht.inv h1).mul h1 hd, ?_⟩
    simp only [Rd.val_div, Rd.val_lit, Rat.cast_one, r1, e, ed, Num.lit_real]
    rw [← div_div, div_eq_mul_inv _ t]; ring
  have kRad : ∃ t, Near u 2 t ∧ (Num.lit 1 * Num.lit 180 / Trig.pi : Rd rnd).val = (Num.lit 1 * Num.lit 180 / Trig.pi : ℝ) * t := by
    obtain ⟨t, ht, e⟩ := h.factor Real.pi
    obtain ⟨d, hd, ed⟩ := h.factor (180 / (Real.pi * t))
    refine ⟨t⁻¹ * d, (ht.inv h1).mul h1 hd, ?_⟩
    have hp : (Trig.pi : Rd rnd).val = Real.pi * t := e
    simp only [Rd.val_div, Rd.val_mul, Rd.val_lit, Rat.cast_one, Rat.cast_ofNat, r1, r180, one_mul, hp, ed, Num.lit_real, Trig.pi_real]
    rw [← div_div, div_eq_mul_inv _ t]; ring
  have vMin : (Num.lit 1 * Num.lit 60 : Rd rnd).val = 60 := by simp [r1, r60]
  have vHour : (Num.lit 60 * (Num.lit 1 * Num.lit 60) : Rd rnd).val = 3600 := by
    simp only [Rd.val_mul, Rd.val_lit, Rat.cast_one, Rat.cast_ofNat, r1, r60, one_mul]; norm_num [r3600]
  have vDay : (Num.lit 60 * (Num.lit 1 * Num.lit 60) * Num.lit 24 : Rd rnd).val = 86400 := by
    rw [Rd.val_mul, vHour]; simp only [Rd.val_lit, Rat.cast_ofNat, r24]; norm_num [r86400]
  have kMin : ∃ t, Near u 2 t ∧ (Num.lit 1 * Num.lit 60 : Rd rnd).val = (Num.lit 1 * Num.lit 60 : ℝ) * t :=
    ⟨1, one2, by rw [vMin]; norm_num⟩
  have kHour : ∃ t, Near u 2 t ∧ (Num.lit 60 * (Num.lit 1 * Num.lit 60) : Rd rnd).val =
      (Num.lit 60 * (Num.lit 1 * Num.lit 60) : ℝ) * t := ⟨1, one2, by rw [vHour]; norm_num⟩
  have kDay : ∃ t, Near u 2 t ∧ (Num.lit 60 * (Num.lit 1 * Num.lit 60) * Num.lit 24 : Rd rnd).val =
      (Num.lit 60 * (Num.lit 1 * Num.lit 60) * Num.lit 24 : ℝ) * t := ⟨1, one2, by rw [vDay]; norm_num⟩
  have kYear : ∃ t, Near u 2 t ∧ (Num.lit 60 * (Num.lit 1 * Num.lit 60) * Num.lit 24 * Num.lit 365.242 : Rd rnd).val =
      (Num.lit 60 * (Num.lit 1 * Num.lit 60) * Num.lit 24 * Num.lit 365.242 : ℝ) * t := by
    obtain ⟨t, ht, e⟩ := h.factor ((365.242 : ℚ) : ℝ)
    obtain ⟨d, hd, ed⟩ := h.factor (86400 * (((365.242 : ℚ) : ℝ) * t))
    refine ⟨t * d, ht.mul h1 hd, ?_⟩
    rw [Rd.val_mul, vDay, Rd.val_lit, e, ed]
    simp only [Num.lit_real, Rat.cast_one, Rat.cast_ofNat]
    ring
  unfold table
  repeat' first | exact List.Forall₂.nil | refine List.Forall₂.cons ⟨rfl, rfl, ?_⟩ ?_
  all_goals first | exact kOne | exact kLit _ | exact kDiv _ | exact kRad | exact kMin | exact kHour | exact kDay | exact kYear

theorem get?_near : ∀ (d : Dict String (String × Rd rnd)) (d' : Dict String (String × ℝ)),
    List.Forall₂ (EntryNear u) d d' → ∀ n e, Dict.get? d' n = some e →
      ∃ x : Rd rnd, Dict.get? d n = some (e.1, x) ∧ ∃ t, Near u 2 t ∧ x.val = e.2 * t := by
  intro d d' hd
  induction hd with
  | nil => intro n e he; simp at he
  | @cons a b l l' hab hl ih =>
    intro n e he
    obtain ⟨ha, hc, ht⟩ := hab
    obtain ⟨an, ac, ax⟩ := a
    obtain ⟨bn, bc, bx⟩ := b
    simp only at ha hc ht
    subst ha; subst hc
    rw [Dict.get?_cons] at he ⊢
    by_cases hn : an = n
    · rw [if_pos hn] at he ⊢
      have := Option.some.inj he
      rw [← this]
      exact ⟨ax, rfl, ht⟩
    · rw [if_neg hn] at he ⊢
      exact ih n e he

theorem lookup_near (h : Rounding rnd u) {n : String} {U : UnitDef} (hn : UnitIs n U) :
    ∃ x : Rd rnd, lookup (some n) = .ok (U.cls, x) ∧ ∃ t, Near u 2 t ∧ x.val = U.size * t := by
  have : (table (α := ℝ)).get? n = some (U.cls, U.size) := by
    rw [table_get?, show unitOf n = some U from hn]; rfl
  obtain ⟨x, hx, ht⟩ := get?_near _ _ (table_near h) n _ this
  refine ⟨x, ?_, ht⟩
  simp [lookup, hx]

/-- the factor between two units: the quotient of the two table entries, rounded once -/
theorem factor_near (h : Rounding rnd u) {a b : String} {A B : UnitDef} (ha : UnitIs a A) (hb : UnitIs b B)
    (hc : A.cls = B.cls) : ∃ x y f g: Rd rnd, (∃ t, Near u 2 t ∧ x.val = A.size * t) ∧ (∃ t, Near u 2 t ∧ y.val = B.size * t) ∧
      factor (some a) (some b) none = .ok f ∧ factor (some b) (some a) none = .ok g ∧
      (∃ t, Near u 1 t ∧ f.val = x.val / y.val * t) ∧ ∃ t, Near u 1 t ∧ g.val = y.val / x.val * t := by
  obtain ⟨x, hx, tx, ntx, etx⟩ := lookup_near h ha
  obtain ⟨y, hy, ty, nty, ety⟩ := lookup_near h hb
  have hxp : 0 < x.val := by rw [etx]; exact mul_pos (size_pos ha) (ntx.pos h.lt_one)
  have hyp : 0 < y.val := by rw [ety]; exact mul_pos (size_pos hb) (nty.pos h.lt_one)
  have hz : (Num.lit 0 : Rd rnd).val = 0 := by rw [Rd.val_lit]; push_cast; exact h.zero
  by_cases hab : a = b
  · subst hab
    have hAB : A = B := by rw [UnitIs] at ha hb; rw [ha] at hb; exact Option.some.inj hb
    subst hAB
    refine ⟨x, x, Num.lit 1, Num.lit 1, ⟨tx, ntx, etx⟩, ⟨tx, ntx, etx⟩, ?_, ?_, ⟨1, near_one h 1, ?_⟩, ⟨1, near_one h 1, ?_⟩⟩
    · simp [factor]
    · simp [factor]
    · rw [div_self hxp.ne', Rd.val_lit]; push_cast; rw [h.one]; norm_num
    · rw [div_self hxp.ne', Rd.val_lit]; push_cast; rw [h.one]; norm_num
  · have hne : ¬ (some a = some b) := fun e => hab (Option.some.inj e)
    have hne' : ¬ (some b = some a) := fun e => hab (Option.some.inj e).symm
    obtain ⟨t, ht, e⟩ := h.factor (x.val / y.val)
    obtain ⟨t', ht', e'⟩ := h.factor (y.val / x.val)
    refine ⟨x, y, x / y, y / x, ⟨tx, ntx, etx⟩, ⟨ty, nty, ety⟩, ?_, ?_, ⟨t, ht, e⟩, ⟨t', ht', e'⟩⟩
    · unfold factor
      rw [blank_unit ha]
      simp only [Bool.false_and, Bool.false_eq_true, if_false, if_neg hne, hx, hy, ok_bind, hc, ne_eq, not_true_eq_false]
      have : ¬ Num.eq y (Num.lit 0) = true := by rw [Rd.eq_iff, hz]; exact hyp.ne'
      simp [blank, pyDiv, this]
    · unfold factor
      rw [blank_unit hb]
      simp only [Bool.false_and, Bool.false_eq_true, if_false, if_neg hne', hx, hy, ok_bind, hc, ne_eq, not_true_eq_false]
      have : ¬ Num.eq x (Num.lit 0) = true := by rw [Rd.eq_iff, hz]; exact hxp.ne'
      simp [blank, pyDiv, this]

/-- **C82.** A conversion between units of one kind has relative error at most `gam u 6`. -/
theorem C82_convert (h : Rounding rnd u) (hu : 6 * u < 1) {a b : String} {A B : UnitDef} (ha : UnitIs a A) (hb : UnitIs b B)
    (hc : A.cls = B.cls) (v : Rd rnd) : ∃ w : Rd rnd, convert (some v) (some a) (some b) none = .ok (some w, some b) ∧
      |w.val - v.val * A.size / B.size| ≤ gam u 6 * |v.val * A.size / B.size| := by
  obtain ⟨x, y, f, g, ⟨tx, ntx, ex⟩, ⟨ty, nty, ey⟩, hf, -, ⟨t, nt, et⟩, -⟩ := factor_near h ha hb hc
  obtain ⟨d, hd, ed⟩ := h.factor (v.val * f.val)
  refine ⟨v * f, by simp [convert, hf], ?_⟩
  have hB := size_pos hb
  have htx := ntx.pos h.lt_one
  have hty := nty.pos h.lt_one
  have e : (v * f).val = v.val * A.size / B.size * (tx / ty * t * d) := by
    rw [Rd.val_mul, ed, et, ex, ey]; field_simp
  rw [e]
  exact factor_err h (by push_cast; linarith) (((ntx.div h.lt_one nty).mul h.lt_one nt).mul h.lt_one hd)

/-- **C82.** Converting there and back gives the number back up to `gam u 4`. -/
theorem C82_round_trip (h : Rounding rnd u) (hu : 4 * u < 1) {a b : String} {A B : UnitDef} (ha : UnitIs a A) (hb : UnitIs b B)
    (hc : A.cls = B.cls) (v : Rd rnd) : ∃ w w' : Rd rnd, convert (some v) (some a) (some b) none = .ok (some w, some b) ∧
      convert (some w) (some b) (some a) none = .ok (some w', some a) ∧ |w'.val - v.val| ≤ gam u 4 * |v.val| := by
  obtain ⟨x, y, f, g, ⟨tx, ntx, ex⟩, ⟨ty, nty, ey⟩, hf, hg, ⟨t, nt, et⟩, ⟨s, ns, es⟩⟩ := factor_near h ha hb hc
  obtain ⟨d, hd, ed⟩ := h.factor (v.val * f.val)
  obtain ⟨d', hd', ed'⟩ := h.factor ((v * f).val * g.val)
  refine ⟨v * f, v * f * g, by simp [convert, hf], by simp [convert, hg], ?_⟩
  have hx : 0 < x.val := by rw [ex]; exact mul_pos (size_pos ha) (ntx.pos h.lt_one)
  have hy : 0 < y.val := by rw [ey]; exact mul_pos (size_pos hb) (nty.pos h.lt_one)
  have e : (v * f * g).val = v.val * (t * s * d * d') := by
    rw [Rd.val_mul, ed', Rd.val_mul, ed, et, es]; field_simp
  rw [e]
  exact factor_err h (by push_cast; linarith) (((nt.mul h.lt_one ns).mul h.lt_one hd).mul h.lt_one hd')

/-- Non-vacuity: rounding to 53 bits, feet and centimetres. -/
example : Rounding rnd53 (1 / 2 ^ 53) ∧ 6 * ((1 : ℝ) / 2 ^ 53) < 1 ∧
    ∃ A B, UnitIs "ft" A ∧ UnitIs "cm" B ∧ A.cls = B.cls :=
  ⟨rounding_rnd53, by norm_num, _, _, rfl, rfl, rfl⟩

/-! ### C83: distances and lengths -/

theorem dist_rd (h : Rounding rnd u) (a b : V3 (Rd rnd)) :
    ∃ t, Near u 4 t ∧ (V3.norm (b - a)).val = dist3 (Rd.vec a) (Rd.vec b) * t := by
  obtain ⟨t, ht, e⟩ := norm_rd h (b - a)
  obtain ⟨t1, h1, e1⟩ := h.factor (b.x.val - a.x.val)
  obtain ⟨t2, h2, e2⟩ := h.factor (b.y.val - a.y.val)
  obtain ⟨t3, h3, e3⟩ := h.factor (b.z.val - a.z.val)
  obtain ⟨s, hs, es⟩ := len_near (a := b.x.val - a.x.val) (b := b.y.val - a.y.val) (c := b.z.val - a.z.val) h h1 h2 h3
  refine ⟨s * t, hs.mul h.lt_one ht, ?_⟩
  rw [e, ← mul_assoc]
  congr 1
  have : len3 (Rd.vec (b - a)) = Real.sqrt (((b.x.val - a.x.val) * t1) ^ 2 + ((b.y.val - a.y.val) * t2) ^ 2 +
      ((b.z.val - a.z.val) * t3) ^ 2) := by
    rw [← e1, ← e2, ← e3]; rfl
  rw [this, es]; rfl

/-- **C83.** The distance of two points, as `np.linalg.norm(b - a)` computes it, has relative error at most `gam u 4`,
also for points close together. -/
theorem C83_distance (h : Rounding rnd u) (hu : 4 * u < 1) (a b : V3 (Rd rnd)) :
    |(V3.norm (b - a)).val - dist3 (Rd.vec a) (Rd.vec b)| ≤ gam u 4 * dist3 (Rd.vec a) (Rd.vec b) := by
  obtain ⟨t, ht, e⟩ := dist_rd h a b
  have := factor_err (x := dist3 (Rd.vec a) (Rd.vec b)) h (by push_cast; linarith) ht
  rw [e]
  rwa [abs_of_nonneg (show 0 ≤ dist3 (Rd.vec a) (Rd.vec b) from len3_nonneg _)] at this

theorem pairs_map {P Q : Type} (f : P → Q) : ∀ l : List P, pairs (l.map f) = (pairs l).map fun s => (f s.1, f s.2)
  | [] => rfl
  | [_] => rfl
  | a :: b :: l => by
    have := pairs_map f (b :: l)
    simp only [List.map_cons, pairs] at this ⊢
    rw [this]

theorem chainSegs_map {P Q : Type} (f : P → Q) (v : List P) (closed : Bool) :
    chainSegs (v.map f) closed = (chainSegs v closed).map fun s => (f s.1, f s.2) := by
  unfold chainSegs
  rw [← pairs_map]
  congr 1
  unfold circuit
  cases closed <;> cases v <;> simp

/-- **C83.** The total length of a polyline of `n` segments has relative error at most `gam u (n + 4)`. -/
theorem C83_total_length (h : Rounding rnd u) (v : List (V3 (Rd rnd))) (closed : Bool)
    (hu : (((chainSegs v closed).length + 4 : ℕ) : ℝ) * u < 1) :
    ∃ L : Rd rnd, (poly v closed).totalLength = .ok L ∧
      |L.val - pathLength (circuit (v.map Rd.vec) closed)| ≤
        gam u ((chainSegs v closed).length + 4) * pathLength (circuit (v.map Rd.vec) closed) := by
  have hp : pathLength (circuit (v.map Rd.vec) closed) =
      ((chainSegs v closed).map fun s => dist3 (Rd.vec s.1) (Rd.vec s.2)).sum := by
    show ((chainSegs (v.map Rd.vec) closed).map fun s => dist3 s.1 s.2).sum = _
    rw [chainSegs_map, List.map_map]; rfl
  have hs := segments_eq v closed
  rw [hp]
  generalize chainSegs v closed = segs at *
  refine ⟨sumL (segs.map fun s => V3.norm (s.2 - s.1)), by
    simp [Polyline.totalLength, Polyline.segmentLengths, hs]; simp [poly], ?_⟩
  obtain ⟨ts, hl, hn, es⟩ := sumL_rd h (segs.map fun s => V3.norm (s.2 - s.1))
  rw [List.length_map] at hl hn
  have key : ∀ (segs : List (V3 (Rd rnd) × V3 (Rd rnd))) (ts : List ℝ) (n : ℕ), ts.length = segs.length →
      (∀ t ∈ ts, Near u n t) → ∃ ss : List ℝ, ss.length = segs.length ∧ (∀ t ∈ ss, Near u (n + 4) t) ∧
        (List.zipWith (fun (x : Rd rnd) t => x.val * t) (segs.map fun s => V3.norm (s.2 - s.1)) ts).sum =
          (List.zipWith (· * ·) (segs.map fun s => dist3 (Rd.vec s.1) (Rd.vec s.2)) ss).sum := by
    intro segs
    induction segs with
    | nil => intro ts n _ _; exact ⟨[], rfl, by simp, by simp⟩
    | cons s segs ih =>
      intro ts n hl hn
      match ts, hl with
      | t :: ts, hl =>
        obtain ⟨ss, h1, h2, h3⟩ := ih ts n (by simpa using hl) (fun t' h => hn t' (by simp [h]))
        obtain ⟨d, hd, ed⟩ := dist_rd h s.1 s.2
        refine ⟨t * d :: ss, by simp [h1], ?_, ?_⟩
        · intro x hx
          rcases List.mem_cons.mp hx with hx | hx
          · rw [hx]; exact (hn t (by simp)).mul h.lt_one hd
          · exact h2 x hx
        · simp only [List.map_cons, List.zipWith_cons_cons, List.sum_cons, h3, ed]
          ring
  obtain ⟨ss, h1, h2, h3⟩ := key segs ts segs.length hl hn
  have hnn : ∀ w ∈ segs.map fun s => dist3 (Rd.vec s.1) (Rd.vec s.2), 0 ≤ w := by
    intro w hw
    obtain ⟨s, -, rfl⟩ := List.mem_map.mp hw
    exact len3_nonneg _
  obtain ⟨t, ht, et⟩ := zip_factor (k := segs.length + 4) _ ss (by simp [h1]) hnn h2 (near_one h _)
  rw [es, h3, et]
  have := factor_err (x := (segs.map fun s => dist3 (Rd.vec s.1) (Rd.vec s.2)).sum) h hu ht
  rwa [abs_of_nonneg (List.sum_nonneg hnn)] at this

/-- an order of summation: a tree of additions over the terms -/
inductive SumTree (β : Type) where
  | leaf (x : β)
  | node (l r : SumTree β)

/-- the terms from left to right -/
def SumTree.terms {β : Type} : SumTree β → List β
  | .leaf x => [x]
  | .node l r => l.terms ++ r.terms

/-- the sum, every addition rounded -/
noncomputable def SumTree.eval : SumTree (Rd rnd) → Rd rnd
  | .leaf x => x
  | .node l r => l.eval + r.eval

theorem SumTree.terms_pos {β : Type} (t : SumTree β) : 1 ≤ t.terms.length := by
  induction t with
  | leaf x => simp [terms]
  | node l r ihl _ => simp only [terms, List.length_append]; omega

theorem SumTree.eval_near (h : Rounding rnd u) (t : SumTree (Rd rnd)) (hp : ∀ x ∈ t.terms, 0 ≤ x.val) :
    ∃ s, Near u (t.terms.length - 1) s ∧ t.eval.val = (t.terms.map Rd.val).sum * s := by
  induction t with
  | leaf x => exact ⟨1, near_one h _, by simp [terms, eval]⟩
  | node l r ihl ihr =>
    obtain ⟨s, hs, es⟩ := ihl fun x hx => hp x (by simp [terms, hx])
    obtain ⟨t, ht, et⟩ := ihr fun x hx => hp x (by simp [terms, hx])
    have l1 := l.terms_pos
    have r1 := r.terms_pos
    have pl : 0 ≤ (l.terms.map Rd.val).sum := List.sum_nonneg fun w hw => by
      obtain ⟨x, hx, rfl⟩ := List.mem_map.mp hw; exact hp x (by simp [terms, hx])
    have pr : 0 ≤ (r.terms.map Rd.val).sum := List.sum_nonneg fun w hw => by
      obtain ⟨x, hx, rfl⟩ := List.mem_map.mp hw; exact hp x (by simp [terms, hx])
    obtain ⟨w, hw, ew⟩ := Near.add pl pr
      (hs.mono h.nonneg h.lt_one (by omega : l.terms.length - 1 ≤ l.terms.length + r.terms.length - 2))
      (ht.mono h.nonneg h.lt_one (by omega : r.terms.length - 1 ≤ l.terms.length + r.terms.length - 2))
    obtain ⟨d, hd, ed⟩ := h.factor (l.eval.val + r.eval.val)
    refine ⟨w * d, ?_, ?_⟩
    · have := hw.mul h.lt_one hd
      simp only [terms, List.length_append]
      rwa [show l.terms.length + r.terms.length - 2 + 1 = l.terms.length + r.terms.length - 1 by omega] at this
    · simp only [eval, Rd.val_add, ed, terms, List.map_append, List.sum_append]
      rw [es, et, ew]; ring

/-- **C83.** The same bound, better by one rounding, for every order in which the segment lengths may be added up (such as the
pairwise summation of numpy). -/
theorem C83_any_order (h : Rounding rnd u) (v : List (V3 (Rd rnd))) (closed : Bool) (t : SumTree (Rd rnd)) (ls : List (Rd rnd))
    (hls : (poly v closed).segmentLengths = .ok ls) (ht : t.terms.Perm ls)
    (hu : (((chainSegs v closed).length + 3 : ℕ) : ℝ) * u < 1) :
    |t.eval.val - pathLength (circuit (v.map Rd.vec) closed)| ≤
      gam u ((chainSegs v closed).length + 3) * pathLength (circuit (v.map Rd.vec) closed) := by
  have hp : pathLength (circuit (v.map Rd.vec) closed) =
      ((chainSegs v closed).map fun s => dist3 (Rd.vec s.1) (Rd.vec s.2)).sum := by
    show ((chainSegs (v.map Rd.vec) closed).map fun s => dist3 s.1 s.2).sum = _
    rw [chainSegs_map, List.map_map]; rfl
  have hs := segments_eq v closed
  rw [hp]
  generalize chainSegs v closed = segs at *
  have hl : ls = segs.map fun s => V3.norm (s.2 - s.1) := by
    have : (poly v closed).segmentLengths = .ok (segs.map fun s => V3.norm (s.2 - s.1)) := by
      simp [Polyline.segmentLengths, hs]; simp [poly]
    rw [this] at hls
    exact (Except.ok.inj hls).symm
  have key : ∃ w, Near u 4 w ∧ (ls.map Rd.val).sum = (segs.map fun s => dist3 (Rd.vec s.1) (Rd.vec s.2)).sum * w ∧ ∀ x ∈ ls, 0 ≤ x.val := by
    subst hl
    clear hls ht hs hp hu
    induction segs with
    | nil => exact ⟨1, near_one h 4, by simp, by simp⟩
    | cons s segs ih =>
      obtain ⟨w, hw, ew, hx⟩ := ih
      obtain ⟨d, hd, ed⟩ := dist_rd h s.1 s.2
      have h0 : 0 ≤ dist3 (Rd.vec s.1) (Rd.vec s.2) := len3_nonneg _
      have h1 : 0 ≤ (segs.map fun s => dist3 (Rd.vec s.1) (Rd.vec s.2)).sum := List.sum_nonneg fun w hw => by
        obtain ⟨s, -, rfl⟩ := List.mem_map.mp hw
        exact len3_nonneg _
      obtain ⟨t, ht, et⟩ := Near.add h0 h1 hd hw
      refine ⟨t, ht, ?_, ?_⟩
      · simp only [List.map_cons, List.sum_cons]
        rw [ed, ew, et]
      · intro x hx'
        rcases List.mem_cons.mp hx' with h' | h'
        · rw [h', ed]; exact mul_nonneg h0 (hd.pos h.lt_one).le
        · exact hx x h'
  obtain ⟨w, hw, ew, hx⟩ := key
  obtain ⟨s, hs', es⟩ := t.eval_near h fun x hx' => hx x (ht.mem_iff.mp hx')
  rw [(ht.map Rd.val).sum_eq, ew] at es
  have hlen : t.terms.length = segs.length := by rw [ht.length_eq, hl, List.length_map]
  have h1 := t.terms_pos
  rw [hlen] at hs' h1
  have hnn : 0 ≤ (segs.map fun s => dist3 (Rd.vec s.1) (Rd.vec s.2)).sum := List.sum_nonneg fun w hw => by
    obtain ⟨s, -, rfl⟩ := List.mem_map.mp hw
    exact len3_nonneg _
  have := factor_err (x := (segs.map fun s => dist3 (Rd.vec s.1) (Rd.vec s.2)).sum) (k := segs.length + 3) h hu
    ((hw.mul h.lt_one hs').mono h.nonneg h.lt_one (by omega))
  rw [abs_of_nonneg hnn] at this
  rw [es, mul_assoc]
  exact this

/-- Non-vacuity: a closed triangle in the arithmetic of doubles. -/
example : (((chainSegs ([⟨⟨0⟩, ⟨0⟩, ⟨0⟩⟩, ⟨⟨3⟩, ⟨0⟩, ⟨0⟩⟩, ⟨⟨0⟩, ⟨4⟩, ⟨0⟩⟩] : List (V3 (Rd rnd53))) true).length + 4 : ℕ) : ℝ) *
    (1 / 2 ^ 53) < 1 := by
  norm_num [chainSegs, circuit, pairs]

/-! ### C84: boxes and barycentric coordinates -/

/-- **C84.** The three barycentric coordinates add up to 1 up to `gam u 2` times their size, for every triangle, degenerate
or not. -/
theorem C84_bary_sum (h : Rounding rnd u) (hu : 2 * u < 1) (p q e f : V3 (Rd rnd)) :
    |(barycentric p q e f).x.val + (barycentric p q e f).y.val + (barycentric p q e f).z.val - 1| ≤
      gam u 2 * (1 + |(barycentric p q e f).y.val| + |(barycentric p q e f).z.val|) := by
  obtain ⟨b1, hb1⟩ : ∃ b, b = (barycentric p q e f).y := ⟨_, rfl⟩
  obtain ⟨b2, hb2⟩ : ∃ b, b = (barycentric p q e f).z := ⟨_, rfl⟩
  have hx : (barycentric p q e f).x = Num.lit 1 - b1 - b2 := by rw [hb1, hb2]; rfl
  rw [hx, ← hb1, ← hb2]
  obtain ⟨s, hs, es⟩ := h.factor (1 - b1.val)
  obtain ⟨t, ht, et⟩ := h.factor ((1 - b1.val) * s - b2.val)
  have hv : (Num.lit 1 - b1 - b2 : Rd rnd).val = ((1 - b1.val) * s - b2.val) * t := by
    rw [Rd.val_sub, Rd.val_sub, Rd.val_lit]; push_cast; rw [h.one, es, et]
  rw [hv]
  have hu2 : ((2 : ℕ) : ℝ) * u < 1 := by push_cast; linarith
  have f1 := factor_err (x := 1 - b1.val) h hu2 (hs.mul h.lt_one ht)
  have f2 := factor_err (x := b2.val) h hu2 (ht.mono h.nonneg h.lt_one (by norm_num : 1 ≤ 2))
  have h3 : |1 - b1.val| ≤ 1 + |b1.val| := by
    have := abs_sub 1 b1.val
    rwa [abs_one] at this
  have g := gam_nonneg (k := 2) h.nonneg hu2
  have h4 := mul_le_mul_of_nonneg_left h3 g
  rw [abs_le] at f1 f2 ⊢
  constructor <;> linarith [f1.1, f1.2, f2.1, f2.2]

/-- the box has entries that are floats, and no negative size -/
def FloatBox (b : Box (Rd rnd)) : Prop :=
  (∀ x ∈ [b.origin.x, b.origin.y, b.origin.z, b.shape.x, b.shape.y, b.shape.z], rnd x.val = x.val) ∧
  ∀ x ∈ [b.shape.x, b.shape.y, b.shape.z], 0 ≤ x.val

theorem half_rd (h : Rounding rnd u) (ver : PyVer) (k : ElemKind) (s : Rd rnd) (hs : rnd s.val = s.val) (h0 : 0 ≤ s.val) :
    0 ≤ (Box.half ver k s).val ∧ (Box.half ver k s).val ≤ s.val := by
  have h2 : (Num.lit 2 : Rd rnd).val = 2 := by rw [Rd.val_lit]; simpa using h.int 2 (by norm_num)
  have hd : (s / Num.lit 2).val = rnd (s.val / 2) := by rw [Rd.val_div, h2]
  have hl : 0 ≤ rnd (s.val / 2) := (h.nonneg_iff _).mpr (by linarith)
  have hr : rnd (s.val / 2) ≤ s.val := by
    conv_rhs => rw [← hs]
    exact h.mono (by linarith)
  have key : 0 ≤ (Box.litFloor (s / Num.lit 2)).val ∧ (Box.litFloor (s / Num.lit 2)).val ≤ s.val := by
    have : (Box.litFloor (s / Num.lit 2)).val = rnd ((⌊rnd (s.val / 2)⌋ : ℤ) : ℝ) := by
      show (Num.lit ((⌊(s / Num.lit 2 : Rd rnd).val⌋ : ℤ) : ℚ) : Rd rnd).val = _
      rw [Rd.val_lit, hd]; push_cast; rfl
    rw [this]
    constructor
    · rw [h.nonneg_iff]; exact_mod_cast Int.floor_nonneg.mpr hl
    · calc _ ≤ rnd (rnd (s.val / 2)) := h.mono (Int.floor_le _)
        _ = rnd (s.val / 2) := h.idem _
        _ ≤ _ := hr
  unfold Box.half
  cases ver <;> cases k <;> simp only
  · exact key
  · rw [hd]; exact ⟨hl, hr⟩
  · rw [hd]; exact ⟨hl, hr⟩
  · rw [hd]; exact ⟨hl, hr⟩

/-- **C84.** In rounded arithmetic, too, the minima, middles and maxima of a box are in order, on both versions of
Python. -/
theorem C84_box_order (h : Rounding rnd u) (b : Box (Rd rnd)) (hb : FloatBox b) (ver : PyVer) :
    (b.minX.val ≤ (b.midX ver).val ∧ (b.midX ver).val ≤ b.maxX.val) ∧
    (b.minY.val ≤ (b.midY ver).val ∧ (b.midY ver).val ≤ b.maxY.val) ∧
    (b.minZ.val ≤ (b.midZ ver).val ∧ (b.midZ ver).val ≤ b.maxZ.val) := by
  have key : ∀ o s : Rd rnd, rnd o.val = o.val → rnd s.val = s.val → 0 ≤ s.val →
      o.val ≤ (o + Box.half ver b.shapeKind s).val ∧ (o + Box.half ver b.shapeKind s).val ≤ (o + s).val := by
    intro o s ho hs h0
    obtain ⟨hl, hr⟩ := half_rd h ver b.shapeKind s hs h0
    constructor
    · conv_lhs => rw [← ho]
      exact h.mono (by linarith)
    · exact h.mono (by linarith)
  obtain ⟨hf, hn⟩ := hb
  exact ⟨key b.origin.x b.shape.x (hf _ (by simp)) (hf _ (by simp)) (hn _ (by simp)),
    key b.origin.y b.shape.y (hf _ (by simp)) (hf _ (by simp)) (hn _ (by simp)),
    key b.origin.z b.shape.z (hf _ (by simp)) (hf _ (by simp)) (hn _ (by simp))⟩

/-- **C84.** The volume of a box has relative error at most `gam u 2`. -/
theorem C84_volume (h : Rounding rnd u) (hu : 2 * u < 1) (b : Box (Rd rnd)) :
    |b.volume.val - b.shape.x.val * b.shape.y.val * b.shape.z.val| ≤
      gam u 2 * |b.shape.x.val * b.shape.y.val * b.shape.z.val| := by
  obtain ⟨s, hs, es⟩ := h.factor (b.shape.x.val * b.shape.y.val)
  obtain ⟨t, ht, et⟩ := h.factor (b.shape.x.val * b.shape.y.val * s * b.shape.z.val)
  have : b.volume.val = b.shape.x.val * b.shape.y.val * b.shape.z.val * (s * t) := by
    show rnd (rnd _ * _) = _
    rw [es, et]; ring
  rw [this]
  exact factor_err h (by push_cast; linarith) (hs.mul h.lt_one ht)

/-- **C84.** The surface area of a box has relative error at most `gam u 4`. -/
theorem C84_area (h : Rounding rnd u) (hu : 4 * u < 1) (b : Box (Rd rnd)) (hx : 0 ≤ b.shape.x.val) (hy : 0 ≤ b.shape.y.val)
    (hz : 0 ≤ b.shape.z.val) :
    |b.surfaceArea.val - 2 * (b.shape.x.val * b.shape.y.val + b.shape.y.val * b.shape.z.val + b.shape.z.val * b.shape.x.val)| ≤
      gam u 4 * (2 * (b.shape.x.val * b.shape.y.val + b.shape.y.val * b.shape.z.val + b.shape.z.val * b.shape.x.val)) := by
  have h2 : (Num.lit 2 : Rd rnd).val = 2 := by rw [Rd.val_lit]; simpa using h.int 2 (by norm_num)
  obtain ⟨t1, h1, e1⟩ := h.factor (b.shape.z.val * b.shape.x.val)
  obtain ⟨t2, h2', e2⟩ := h.factor (b.shape.y.val * b.shape.x.val)
  obtain ⟨t3, h3, e3⟩ := h.factor (b.shape.y.val * b.shape.z.val)
  obtain ⟨s, hs, es⟩ := Near.add (mul_nonneg hz hx) (mul_nonneg hy hx) h1 h2'
  obtain ⟨t4, h4, e4⟩ := h.factor ((b.shape.z.val * b.shape.x.val + b.shape.y.val * b.shape.x.val) * s)
  obtain ⟨r, hr, er⟩ := Near.add (add_nonneg (mul_nonneg hz hx) (mul_nonneg hy hx)) (mul_nonneg hy hz) (hs.mul h.lt_one h4)
    (h3.mono h.nonneg h.lt_one (by norm_num : 1 ≤ 2))
  obtain ⟨t5, h5, e5⟩ := h.factor ((b.shape.z.val * b.shape.x.val + b.shape.y.val * b.shape.x.val + b.shape.y.val * b.shape.z.val) * r)
  obtain ⟨t6, h6, e6⟩ := h.factor (2 * ((b.shape.z.val * b.shape.x.val + b.shape.y.val * b.shape.x.val + b.shape.y.val * b.shape.z.val) * r * t5))
  have : b.surfaceArea.val = 2 * (b.shape.x.val * b.shape.y.val + b.shape.y.val * b.shape.z.val + b.shape.z.val * b.shape.x.val) *
      (r * t5 * t6) := by
    show rnd ((Num.lit 2 : Rd rnd).val * rnd (rnd (rnd _ + rnd _) + rnd _)) = _
    rw [h2, e1, e2, e3, es, e4, mul_assoc _ s t4, er, e5, e6]; ring
  rw [this]
  have hp : 0 ≤ 2 * (b.shape.x.val * b.shape.y.val + b.shape.y.val * b.shape.z.val + b.shape.z.val * b.shape.x.val) := by positivity
  have := factor_err (x := 2 * (b.shape.x.val * b.shape.y.val + b.shape.y.val * b.shape.z.val + b.shape.z.val * b.shape.x.val))
    h (by push_cast; linarith) ((hr.mul h.lt_one h5).mul h.lt_one h6)
  rwa [abs_of_nonneg hp] at this

/-- Non-vacuity: the unit cube is a box of floats. -/
example : FloatBox (⟨⟨⟨0⟩, ⟨0⟩, ⟨0⟩⟩, ⟨⟨1⟩, ⟨1⟩, ⟨1⟩⟩, .float⟩ : Box (Rd rnd53)) := by
  constructor <;> intro x hx <;> simp only [List.mem_cons, List.not_mem_nil, or_false] at hx
  · rcases hx with rfl | rfl | rfl | rfl | rfl | rfl <;> first | exact rounding_rnd53.zero | exact rounding_rnd53.one
  · rcases hx with rfl | rfl | rfl <;> norm_num

end Blmath.Props
