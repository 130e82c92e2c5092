import Verif.Props.FloatMeasures
import Verif.Props.Value
import Verif.Proofs.RoundEval

/-!
Property C104: arithmetic and comparison of Values in rounded arithmetic.
-/

namespace Blmath.Props
open Blmath.Spec Blmath.Units Blmath.Proofs Blmath.Value
variable {rnd : ℝ → ℝ} {u : ℝ}

namespace FV

/-- the number stored in a Value denotes `q` base units of kind `k` -/
def Holds (v : Value (Rd rnd)) (k : Option String) (q : ℝ) : Prop := ∃ s, Measures v.units k s ∧ q = v.value.val * s

theorem holds_good {v : Value (Rd rnd)} {k : Option String} {q : ℝ} (h : Holds v k q) : GoodUnits v.units := by
  obtain ⟨s, hs, _⟩ := h
  unfold Measures at hs
  cases hv : v.units with
  | none => exact Or.inl rfl
  | some n =>
    rw [hv] at hs
    obtain ⟨U, hU, _⟩ := hs
    exact Or.inr ⟨n, U, rfl, hU⟩

theorem scale_pos {l k : Option String} {s : ℝ} (h : Measures l k s) : 0 < s := by
  unfold Measures at h
  cases l with
  | none => rw [h.2]; norm_num
  | some n =>
    obtain ⟨U, hU, _, rfl⟩ := h
    exact size_pos hU

theorem scale_unique {l k k' : Option String} {s s' : ℝ} (h : Measures l k s) (h' : Measures l k' s') : k = k' ∧ s = s' := by
  unfold Measures at h h'
  cases l with
  | none => exact ⟨h.1.trans h'.1.symm, h.2.trans h'.2.symm⟩
  | some n =>
    obtain ⟨U, hU, rfl, rfl⟩ := h
    obtain ⟨U', hU', rfl, rfl⟩ := h'
    rw [UnitIs] at hU hU'
    rw [hU] at hU'
    cases hU'
    exact ⟨rfl, rfl⟩

theorem keys_eq : allUnits (Rd rnd) = allUnits ℝ := rfl

theorem make_ok {l : Option String} (h : GoodUnits l) (x : Rd rnd) : Value.make (some x) l = .ok ⟨x, l⟩ := by
  rcases h with rfl | ⟨n, U, rfl, hU⟩
  · rfl
  · have : n ∈ allUnits (Rd rnd) := by rw [keys_eq]; exact (mem_allUnits n).mpr ⟨U, hU⟩
    simp [Value.make, this]

/-- the other operand, expressed in the units of the first -/
theorem other (h : Rounding rnd u) {a b : Value (Rd rnd)} {k : Option String} {qa qb : ℝ} (ha : Holds a k qa) (hb : Holds b k qb) :
    ∃ c t s, b.convert a.units = .ok ⟨c, a.units⟩ ∧ Near u 6 t ∧ Measures a.units k s ∧ 0 < s ∧ qa = a.value.val * s ∧ c.val * s = qb * t ∧
      (a.units = b.units → c = b.value ∧ t = 1) := by
  obtain ⟨sa, ma, ea⟩ := ha
  obtain ⟨sb, mb, eb⟩ := hb
  by_cases hab : a.units = b.units
  · have hs : sa = sb := (scale_unique (hab ▸ ma) mb).2
    refine ⟨b.value, 1, sa, ?_, near_one h 6, ma, scale_pos ma, ea, ?_, fun _ => ⟨rfl, rfl⟩⟩
    · unfold Value.convert
      rw [if_pos hab, hab]
    · rw [eb, hs, mul_one]
  · cases hau : a.units with
    | none =>
      cases hbu : b.units with
      | none => exact absurd (hau.trans hbu.symm) hab
      | some m =>
        rw [hau] at ma
        rw [hbu] at mb
        obtain ⟨B, _, hk, _⟩ := mb
        rw [ma.1] at hk
        cases hk
    | some n =>
      cases hbu : b.units with
      | none =>
        rw [hau] at ma
        rw [hbu] at mb
        obtain ⟨A, _, hk, _⟩ := ma
        rw [mb.1] at hk
        cases hk
      | some m =>
        rw [hau] at ma
        rw [hbu] at mb
        obtain ⟨A, hA, kA, eA⟩ := ma
        obtain ⟨B, hB, kB, eB⟩ := mb
        have hc : B.cls = A.cls := Option.some.inj (kB.symm.trans kA)
        obtain ⟨x, y, f, g, ⟨tx, ntx, ex⟩, ⟨ty, nty, ey⟩, hf, -, ⟨t, nt, et⟩, -⟩ := factor_near h hB hA hc
        obtain ⟨d, hd, ed⟩ := h.factor (b.value.val * f.val)
        have hA' := size_pos hA
        have htx := ntx.pos h.lt_one
        have hty := nty.pos h.lt_one
        refine ⟨b.value * f, tx / ty * t * d, sa, ?_, ((ntx.div h.lt_one nty).mul h.lt_one nt).mul h.lt_one hd, ⟨A, hA, kA, eA⟩,
          eA ▸ hA', ea, ?_, fun e => absurd (hau.trans (e.trans hbu.symm)) hab⟩
        · unfold Value.convert
          rw [if_neg (by rw [hbu, ← hau, ← hbu]; exact hab), if_neg (by rw [hbu]; simp), hbu]
          simp only [Units.convert, hf, ok_bind, pure_eq_ok]
          exact make_ok (Or.inr ⟨n, A, rfl, hA⟩) _
        · rw [Rd.val_mul, ed, et, ex, ey, eb, eA, eB]
          field_simp

end FV
open FV

/-- **C104.** Sums and differences of Values of one kind, in any units: the result carries the units of the first and denotes
the sum or difference of the quantities up to `gam u 7` times their sizes. -/
theorem C104_add_sub (h : Rounding rnd u) (hu : 7 * u < 1) {a b : Value (Rd rnd)} {k : Option String} {qa qb : ℝ}
    (ha : Holds a k qa) (hb : Holds b k qb) :
    (∃ r q, a.add (.val b) = .ok (.val r) ∧ r.units = a.units ∧ Holds r k q ∧ |q - (qa + qb)| ≤ gam u 7 * (|qa| + |qb|)) ∧
    (∃ r q, a.sub (.val b) = .ok (.val r) ∧ r.units = a.units ∧ Holds r k q ∧ |q - (qa - qb)| ≤ gam u 7 * (|qa| + |qb|)) := by
  have hg := holds_good ha
  obtain ⟨c, t, s, hc, nt, ms, hs, ea, ec, _⟩ := other h ha hb
  have key : ∀ (e : ℝ) (d : ℝ), |e| = 1 → Near u 1 d → |(a.value.val + e * c.val) * d * s - (qa + e * qb)| ≤ gam u 7 * (|qa| + |qb|) := by
    intro e d he hd
    have e1 : (a.value.val + e * c.val) * d * s - (qa + e * qb) = (qa * d - qa) + e * (qb * (t * d) - qb) := by
      rw [ea]
      have : c.val * s = qb * t := ec
      calc (a.value.val + e * c.val) * d * s - (a.value.val * s + e * qb)
          = a.value.val * s * d - a.value.val * s + e * (c.val * s * d - qb) := by ring
        _ = _ := by rw [this]; ring
    rw [e1]
    have b1 := factor_err h (k := 7) (x := qa) (by push_cast; linarith) (hd.mono h.nonneg h.lt_one (by norm_num))
    have b2 := factor_err h (k := 7) (x := qb) (by push_cast; linarith) (nt.mul h.lt_one hd)
    calc |qa * d - qa + e * (qb * (t * d) - qb)| ≤ |qa * d - qa| + |e * (qb * (t * d) - qb)| := abs_add_le _ _
      _ = |qa * d - qa| + |qb * (t * d) - qb| := by rw [abs_mul, he, one_mul]
      _ ≤ gam u 7 * |qa| + gam u 7 * |qb| := add_le_add b1 b2
      _ = _ := by ring
  have hcmp : a.comparable (.val b) = .ok c := by
    show (do let c ← b.convert a.units; pure c.value) = _
    rw [hc]; rfl
  obtain ⟨d, hd, ed⟩ := h.factor (a.value.val + c.val)
  obtain ⟨d', hd', ed'⟩ := h.factor (a.value.val - c.val)
  refine ⟨⟨⟨a.value + c, a.units⟩, (a.value + c).val * s, ?_, rfl, ⟨s, ms, rfl⟩, ?_⟩,
    ⟨⟨a.value - c, a.units⟩, (a.value - c).val * s, ?_, rfl, ⟨s, ms, rfl⟩, ?_⟩⟩
  · unfold Value.add
    rw [hcmp, ok_bind, make_ok hg]; rfl
  · rw [Rd.val_add, ed]
    simpa using key 1 d (by norm_num) hd
  · unfold Value.sub
    rw [hcmp, ok_bind, make_ok hg]; rfl
  · rw [Rd.val_sub, ed']
    have := key (-1) d' (by norm_num) hd'
    simpa [sub_eq_add_neg] using this

/-- **C104.** Products and quotients with numbers have relative error at most `gam u 1`; sign and absolute value are exact. -/
theorem C104_scalar (h : Rounding rnd u) {a : Value (Rd rnd)} {k : Option String} {qa : ℝ} (ha : Holds a k qa) (x : Rd rnd) :
    (∃ r q, a.mul (.num x) = .ok (.val r) ∧ r.units = a.units ∧ Holds r k q ∧ |q - qa * x.val| ≤ gam u 1 * |qa * x.val|) ∧
    (x.val ≠ 0 → ∃ r q, a.truediv (.num x) = .ok r ∧ r.units = a.units ∧ Holds r k q ∧ |q - qa / x.val| ≤ gam u 1 * |qa / x.val|) ∧
    (x.val = 0 → a.truediv (.num x) = .error .ZeroDivisionError) ∧
    (∃ r, a.neg = .ok r ∧ r.units = a.units ∧ Holds r k (-qa)) ∧
    (∃ r, Value.abs a = .ok r ∧ r.units = a.units ∧ Holds r k |qa|) := by
  have hg := holds_good ha
  obtain ⟨s, ms, es⟩ := ha
  have hs := scale_pos ms
  have z : (Num.lit 0 : Rd rnd).val = 0 := by rw [Rd.val_lit]; push_cast; exact h.zero
  have h1 : ((1 : ℕ) : ℝ) * u < 1 := by push_cast; linarith [h.lt_one]
  refine ⟨⟨⟨a.value * x, a.units⟩, _, ?_, rfl, ⟨s, ms, rfl⟩, ?_⟩, ?_, ?_, ⟨⟨-a.value, a.units⟩, ?_, rfl, ⟨s, ms, ?_⟩⟩,
    ⟨⟨pyAbs a.value, a.units⟩, ?_, rfl, ⟨s, ms, ?_⟩⟩⟩
  · unfold Value.mul
    rw [make_ok hg]; rfl
  · obtain ⟨d, hd, ed⟩ := h.factor (a.value.val * x.val)
    have := factor_err h (x := qa * x.val) h1 hd
    rw [Rd.val_mul, ed, show a.value.val * x.val * d * s = qa * x.val * d by rw [es]; ring]
    exact this
  · intro hx
    obtain ⟨d, hd, ed⟩ := h.factor (a.value.val / x.val)
    refine ⟨⟨a.value / x, a.units⟩, _, ?_, rfl, ⟨s, ms, rfl⟩, ?_⟩
    · show (do let q ← pyDiv a.value x; Value.make (some q) a.units) = _
      unfold pyDiv
      rw [if_neg (by rw [Rd.eq_iff, z]; exact hx), ok_bind, make_ok hg]
    · have := factor_err h (x := qa / x.val) h1 hd
      rw [Rd.val_div, ed, show a.value.val / x.val * d * s = qa / x.val * d by rw [es]; ring]
      exact this
  · intro hx
    show (do let q ← pyDiv a.value x; Value.make (some q) a.units) = _
    unfold pyDiv
    rw [if_pos (by rw [Rd.eq_iff, z]; exact hx)]; rfl
  · unfold Value.neg
    rw [make_ok hg]
  · rw [es, Rd.val_neg]; ring
  · unfold Value.abs
    rw [make_ok hg]
  · rw [es, abs_mul, abs_of_pos hs]
    congr 1
    unfold pyAbs
    by_cases hlt : a.value.val < 0
    · rw [if_pos (by rw [Rd.lt_iff, z]; exact hlt), abs_of_neg hlt, Rd.val_neg]
    · rw [if_neg (by rw [Rd.lt_iff, z]; exact hlt), abs_of_nonneg (not_lt.mp hlt)]

/-- **C104.** The quotient of two Values of one kind, in any units, is a unitless number with relative error at most `gam u 7`;
a zero divisor raises. -/
theorem C104_ratio (h : Rounding rnd u) (hu : 7 * u < 1) {a b : Value (Rd rnd)} {k : Option String} {qa qb : ℝ}
    (ha : Holds a k qa) (hb : Holds b k qb) :
    (qb ≠ 0 → ∃ r, a.truediv (.val b) = .ok ⟨r, none⟩ ∧ |r.val - qa / qb| ≤ gam u 7 * |qa / qb|) ∧
    (qb = 0 → a.truediv (.val b) = .error .ZeroDivisionError) := by
  obtain ⟨c, t, s, hc, nt, ms, hs, ea, ec, _⟩ := other h ha hb
  have z : (Num.lit 0 : Rd rnd).val = 0 := by rw [Rd.val_lit]; push_cast; exact h.zero
  have ht := nt.pos h.lt_one
  have hz : c.val = 0 ↔ qb = 0 := by
    constructor
    · intro h0; rw [h0, zero_mul] at ec; rcases mul_eq_zero.mp ec.symm with e | e
      · exact e
      · exact absurd e ht.ne'
    · intro h0; rw [h0, zero_mul] at ec; rcases mul_eq_zero.mp ec with e | e
      · exact e
      · exact absurd e hs.ne'
  constructor
  · intro hq
    have hc0 : c.val ≠ 0 := fun e => hq (hz.mp e)
    obtain ⟨d, hd, ed⟩ := h.factor (a.value.val / c.val)
    refine ⟨a.value / c, ?_, ?_⟩
    · unfold Value.truediv
      simp only [hc, ok_bind]
      unfold pyDiv
      rw [if_neg (by rw [Rd.eq_iff, z]; exact hc0), ok_bind]; rfl
    · have := factor_err h (k := 7) (x := qa / qb) (by push_cast; linarith) ((nt.inv h.lt_one).mul h.lt_one hd)
      rw [Rd.val_div, ed, show a.value.val / c.val * d = qa / qb * (t⁻¹ * d) by
        have : c.val = qb * t / s := by rw [← ec]; field_simp
        rw [this, ea]; field_simp]
      exact this
  · intro hq
    unfold Value.truediv
    simp only [hc, ok_bind]
    unfold pyDiv
    rw [if_pos (by rw [Rd.eq_iff, z]; exact hz.mpr hq)]; rfl

/-- **C104.** Every comparison of two Values of one kind returns; it is right whenever the quantities differ by more than
`gam u 6` times the second; and in the same units it is the comparison of the numbers. -/
theorem C104_compare (h : Rounding rnd u) (hu : 6 * u < 1) {a b : Value (Rd rnd)} {k : Option String} {qa qb : ℝ}
    (ha : Holds a k qa) (hb : Holds b k qb) (c : Cmp) :
    ∃ r, compareOp c a (.val b) = .ok r ∧
      (gam u 6 * |qb| < |qa - qb| → (r = true ↔ cmpRel c qa qb)) ∧
      (a.units = b.units → (r = true ↔ cmpRel c qa qb)) := by
  obtain ⟨x, t, s, hc, nt, ms, hs, ea, ec, hsame⟩ := other h ha hb
  have hcmp : a.comparable (.val b) = .ok x := by
    show (do let c ← b.convert a.units; pure c.value) = _
    rw [hc]; rfl
  have happ : (c.apply a.value x = true) ↔ cmpRel c a.value.val x.val := by
    cases c <;> simp [Cmp.apply, cmpRel, ← Bool.not_eq_true]
  have hb6 := factor_err h (k := 6) (x := qb) (by push_cast; linarith) nt
  refine ⟨c.apply a.value x, by unfold compareOp; rw [hcmp]; rfl, ?_, ?_⟩
  · intro hd
    rw [happ]
    have hlt : a.value.val < x.val ↔ qa < qb := by
      rw [← mul_lt_mul_iff_left₀ hs, ← ea, ec]
      rw [abs_le] at hb6
      rcases lt_or_ge qa qb with hl | hl
      · rw [abs_of_neg (sub_neg.mpr hl)] at hd
        exact iff_of_true (by linarith [hb6.1]) hl
      · rw [abs_of_nonneg (sub_nonneg.mpr hl)] at hd
        exact iff_of_false (by linarith [hb6.2]) (not_lt.mpr hl)
    have hgt : x.val < a.value.val ↔ qb < qa := by
      rw [← mul_lt_mul_iff_left₀ hs, ← ea, ec]
      rw [abs_le] at hb6
      rcases lt_or_ge qb qa with hl | hl
      · rw [abs_of_pos (sub_pos.mpr hl)] at hd
        exact iff_of_true (by linarith [hb6.2]) hl
      · rw [abs_of_nonpos (sub_nonpos.mpr hl)] at hd
        exact iff_of_false (by linarith [hb6.1]) (not_lt.mpr hl)
    have heq : a.value.val = x.val ↔ qa = qb := by
      constructor
      · intro e
        exact le_antisymm (not_lt.mp fun hh => absurd (hgt.mpr hh) (by rw [e]; exact lt_irrefl _))
          (not_lt.mp fun hh => absurd (hlt.mpr hh) (by rw [e]; exact lt_irrefl _))
      · intro e
        exact le_antisymm (not_lt.mp fun hh => absurd (hgt.mp hh) (by rw [e]; exact lt_irrefl _))
          (not_lt.mp fun hh => absurd (hlt.mp hh) (by rw [e]; exact lt_irrefl _))
    cases c with
    | eq => exact heq
    | ne => exact not_congr heq
    | lt => exact hlt
    | gt => exact hgt
    | le => show _ ≤ _ ↔ _ ≤ _; rw [← not_lt, ← not_lt]; exact not_congr hgt
    | ge => show _ ≤ _ ↔ _ ≤ _; rw [← not_lt, ← not_lt]; exact not_congr hlt
  · intro he
    rw [happ]
    obtain ⟨rfl, rfl⟩ := hsame he
    rw [mul_one] at ec
    rw [ea, ← ec]
    cases c <;> simp [cmpRel, hs, hs.ne']

namespace FV

theorem table_cast : table (α := Rd rnd53) = (table (α := QD)).map fun e => (e.1, e.2.1, e.2.2.toRd) := by
  simp only [table, List.map_cons, List.map_nil, QD.toRd_lit, QD.toRd_pi, ← QD.toRd_mul, ← QD.toRd_div]

theorem get?_map {β γ : Type} (f : β → γ) (d : Dict String (String × β)) (n : String) :
    Dict.get? (d.map fun e => (e.1, e.2.1, f e.2.2)) n = (Dict.get? d n).map fun e => (e.1, f e.2) := by
  induction d with
  | nil => rfl
  | cons e d ih =>
    obtain ⟨m, c, x⟩ := e
    rw [List.map_cons, Dict.get?_cons, Dict.get?_cons, ih]
    by_cases hm : m = n <;> simp [hm]

theorem lookup_cast (n : Option String) : lookup (α := Rd rnd53) n = (lookup (α := QD) n).map fun e => (e.1, e.2.toRd) := by
  unfold lookup
  cases n with
  | none => rfl
  | some n =>
    simp only [table_cast, get?_map]
    cases Dict.get? (table (α := QD)) n <;> rfl

theorem factor_cast (a b c : Option String) : factor (α := Rd rnd53) a b c = (factor (α := QD) a b c).map QD.toRd := by
  unfold factor
  rw [lookup_cast, lookup_cast]
  by_cases h1 : (blank a && blank b) = true
  · rw [if_pos h1, if_pos h1, QD.toRd_lit]; rfl
  · rw [if_neg h1, if_neg h1]
    by_cases h2 : a = b
    · rw [if_pos h2, if_pos h2, QD.toRd_lit]; rfl
    · rw [if_neg h2, if_neg h2]
      cases lookup (α := QD) a with
      | error e => rfl
      | ok x =>
        cases lookup (α := QD) b with
        | error e => rfl
        | ok y =>
          simp only [Except.map, ok_bind]
          split_ifs
          · rfl
          · rfl
          · unfold pyDiv
            rw [QD.toRd_lit, QD.toRd_eq]
            split_ifs
            · rfl
            · rw [← QD.toRd_div]

/-- the same Value with its number in `Rd rnd53` -/
noncomputable def up (v : Value QD) : Value (Rd rnd53) := ⟨v.value.toRd, v.units⟩

theorem keys_q : allUnits (Rd rnd53) = allUnits QD := rfl

theorem convert_cast (v : Value QD) (l : Option String) : (up v).convert l = (v.convert l).map up := by
  unfold Value.convert Units.convert
  rw [show (up v).units = v.units from rfl, factor_cast]
  split_ifs
  · rfl
  · rfl
  · cases factor (α := QD) v.units l none with
    | error e => rfl
    | ok f =>
      simp only [Except.map, ok_bind, pure_eq_ok]
      rw [show (up v).value = v.value.toRd from rfl, ← QD.toRd_mul]
      cases l with
      | none => rfl
      | some n =>
        unfold Value.make
        by_cases hn : (allUnits QD).contains n = true
        · simp only [keys_q, hn, if_true]; rfl
        · simp only [keys_q, hn]; rfl

theorem compare_cast (c : Cmp) (a b : Value QD) : compareOp c (up a) (.val (up b)) = compareOp c a (.val b) := by
  show (do let o ← (do let c ← (up b).convert a.units; pure c.value); pure (c.apply (up a).value o)) =
    (do let o ← (do let c ← b.convert a.units; pure c.value); pure (c.apply a.value o))
  rw [convert_cast]
  cases b.convert a.units with
  | error e => rfl
  | ok x =>
    show Except.ok (c.apply a.value.toRd x.value.toRd) = Except.ok (c.apply a.value x.value)
    congr 1
    cases c <;> simp [Cmp.apply, QD.toRd_lt, QD.toRd_le, QD.toRd_eq]

/-- conversions there and back, over the whole table: the product of the two factors is within one unit of 1 -/
theorem factors_check : ((table (α := QD)).all fun e => (table (α := QD)).all fun e' =>
    e.2.1 != e'.2.1 || (decide (1 - 9 / 10 / 2 ^ 53 ≤ (e.2.2 / e'.2.2).val * (e'.2.2 / e.2.2).val) &&
      decide ((e.2.2 / e'.2.2).val * (e'.2.2 / e.2.2).val ≤ 1 + 1 / 2 ^ 53) && decide (0 < (e.2.2 / e'.2.2).val))) = true := by
  decide +kernel

theorem mem_of_get? {β : Type} (d : Dict String β) (n : String) (x : β) (h : Dict.get? d n = some x) : (n, x) ∈ d := by
  induction d with
  | nil => cases h
  | cons e d ih =>
    obtain ⟨m, y⟩ := e
    rw [Dict.get?_cons] at h
    by_cases hm : m = n
    · rw [if_pos hm] at h
      cases h
      simp [hm]
    · rw [if_neg hm] at h
      exact List.mem_cons_of_mem _ (ih h)

/-- the factors between two units of one kind, as doubles -/
theorem factors {n m : String} {A B : UnitDef} (hn : UnitIs n A) (hm : UnitIs m B) (hc : A.cls = B.cls) (hne : n ≠ m) :
    ∃ f g : ℝ, factor (α := Rd rnd53) (some n) (some m) none = .ok ⟨f⟩ ∧ factor (α := Rd rnd53) (some m) (some n) none = .ok ⟨g⟩ ∧
      0 < f ∧ 0 < g ∧ 1 - 9 / 10 / 2 ^ 53 ≤ f * g ∧ f * g ≤ 1 + 1 / 2 ^ 53 := by
  have look : ∀ {k : String} {U : UnitDef}, UnitIs k U → ∃ x : QD, lookup (some k) = .ok (U.cls, x) ∧ (k, U.cls, x) ∈ table (α := QD) := by
    intro k U hU
    obtain ⟨x, hx, _⟩ := lookup_near rounding_rnd53 hU
    rw [lookup_cast] at hx
    cases hl : lookup (α := QD) (some k) with
    | error e => rw [hl] at hx; cases hx
    | ok e =>
      rw [hl] at hx
      simp only [Except.map, Except.ok.injEq, Prod.mk.injEq] at hx
      obtain ⟨c, y⟩ := e
      obtain ⟨rfl, _⟩ := hx
      refine ⟨y, rfl, ?_⟩
      unfold lookup at hl
      simp only at hl
      cases hg : Dict.get? (table (α := QD)) k with
      | none => rw [hg] at hl; cases hl
      | some e' =>
        rw [hg] at hl
        simp only [Except.ok.injEq] at hl
        rw [hl] at hg
        exact mem_of_get? _ _ _ hg
  obtain ⟨x, lx, mx⟩ := look hn
  obtain ⟨y, ly, my⟩ := look hm
  have chk : ∀ e ∈ table (α := QD), ∀ e' ∈ table (α := QD), e.2.1 = e'.2.1 →
      1 - 9 / 10 / 2 ^ 53 ≤ (e.2.2 / e'.2.2).val * (e'.2.2 / e.2.2).val ∧ (e.2.2 / e'.2.2).val * (e'.2.2 / e.2.2).val ≤ 1 + 1 / 2 ^ 53 ∧
        0 < (e.2.2 / e'.2.2).val := by
    have := factors_check
    simp only [List.all_eq_true, Bool.or_eq_true, bne_iff_ne, ne_eq, Bool.and_eq_true, decide_eq_true_eq] at this
    intro e he e' he' hee
    rcases this e he e' he' with h | ⟨⟨h1, h2⟩, h3⟩
    · exact absurd hee h
    · exact ⟨h1, h2, h3⟩
  obtain ⟨c1, c2, c3⟩ := chk _ mx _ my hc
  obtain ⟨_, _, c4⟩ := chk _ my _ mx hc.symm
  have fac : ∀ {k l : String} {U V : UnitDef} {x y : QD}, UnitIs k U → UnitIs l V → U.cls = V.cls → k ≠ l →
      lookup (some k) = .ok (U.cls, x) → lookup (some l) = .ok (V.cls, y) → 0 < (x / y).val →
      factor (α := Rd rnd53) (some k) (some l) none = .ok ⟨((x / y).val : ℝ)⟩ := by
    intro k l U V x y hU hV hUV hkl lk ll hp
    rw [factor_cast]
    have hy : ¬ Num.eq y (Num.lit 0) = true := by
      intro h0
      have hy0 : y.val = 0 := by
        have h0' : decide (y.val = rndQ 0) = true := h0
        simpa [show rndQ 0 = 0 from rfl] using h0'
      have : (x / y).val = 0 := by
        show rndQ (x.val / y.val) = 0
        rw [hy0, div_zero]; rfl
      rw [this] at hp
      exact lt_irrefl _ hp
    have : factor (α := QD) (some k) (some l) none = .ok (x / y) := by
      unfold factor
      rw [blank_unit hU, lk, ll]
      simp [hkl, hUV, blank, pyDiv, hy]
    rw [this]
    rfl
  refine ⟨_, _, fac hn hm hc hne lx ly c3, fac hm hn hc.symm hne.symm ly lx c4, by exact_mod_cast c3, by exact_mod_cast c4, ?_, ?_⟩
  · have := (Rat.cast_le (K := ℝ)).mpr c1
    push_cast at this
    exact this
  · have := (Rat.cast_le (K := ℝ)).mpr c2
    push_cast at this
    exact this

/-- a positive number with 53 bits -/
theorem bits {V : ℝ} (hV : 0 < V) (hs : rnd53 V = V) :
    ∃ k m : ℤ, V = k * (2 : ℝ) ^ m ∧ 2 ^ 52 ≤ k ∧ k < 2 ^ 53 := by
  have h1 := (Int.zpow_le_iff_le_log (b := 2) (by norm_num) hV).mpr (le_refl (Int.log 2 V))
  have h2 := (Int.lt_zpow_iff_log_lt (b := 2) (by norm_num) hV).mpr (Int.lt_add_one_iff.mpr (le_refl (Int.log 2 V)))
  push_cast at h1 h2
  have hu : ulp V = (2 : ℝ) ^ (Int.log 2 V - 52) := by unfold ulp; rw [abs_of_pos hV]
  have hk : V = nearestEven (V / ulp V) * ulp V := by
    conv_lhs => rw [← hs]
    unfold rnd53
    rw [if_neg hV.ne']
  rw [hu] at hk
  generalize nearestEven _ = k at hk
  generalize Int.log 2 V = l at hk h1 h2
  have hp : (0 : ℝ) < 2 ^ (l - 52) := by positivity
  have e1 : (2 : ℝ) ^ l = 2 ^ 52 * 2 ^ (l - 52) := by
    rw [← zpow_natCast, ← zpow_add₀ (by norm_num)]; congr 1; push_cast; ring
  have e2 : (2 : ℝ) ^ (l + 1) = 2 ^ 53 * 2 ^ (l - 52) := by
    rw [← zpow_natCast, ← zpow_add₀ (by norm_num)]; congr 1; push_cast; ring
  rw [e1, hk] at h1
  rw [e2, hk] at h2
  refine ⟨k, l - 52, hk, ?_, ?_⟩
  · exact_mod_cast le_of_mul_le_mul_right h1 hp
  · exact_mod_cast lt_of_mul_lt_mul_right h2 hp.le

theorem zpow_split (m : ℤ) (n : ℕ) : (2 : ℝ) ^ (m + n) = 2 ^ n * 2 ^ m := by
  rw [zpow_add₀ (by norm_num), zpow_natCast, mul_comm]

/-- what rounds to more than a double is more than that double by half a unit -/
theorem up_gap {V y : ℝ} (hV : 0 < V) (hs : rnd53 V = V) (h : V < rnd53 y) : V * (1 + 1 / 2 ^ 54) < y := by
  by_contra hc
  push Not at hc
  obtain ⟨k, m, hk, k1, k2⟩ := bits hV hs
  have hp : (0 : ℝ) < 2 ^ m := by positivity
  have k1' : (2 : ℝ) ^ 52 ≤ k := by exact_mod_cast k1
  have k2' : (k : ℝ) ≤ 2 ^ 53 - 1 := by
    have : k ≤ 2 ^ 53 - 1 := by omega
    exact_mod_cast this
  apply absurd h
  push Not
  rcases le_or_gt y V with hy | hy
  · exact hs ▸ rounding_rnd53.mono hy
  have hb : y < V + 2 ^ m / 2 := by
    rw [hk] at hc ⊢
    have : (k : ℝ) * 2 ^ m ≤ (2 ^ 53 - 1) * 2 ^ m := mul_le_mul_of_nonneg_right k2' hp.le
    linarith
  rw [rnd53_eval y k m, hk]
  · rw [show m + 52 = m + ((52 : ℕ) : ℤ) by norm_num, zpow_split]
    have := mul_le_mul_of_nonneg_right k1' hp.le
    linarith
  · rw [show m + 53 = m + ((53 : ℕ) : ℤ) by norm_num, zpow_split]
    have := mul_le_mul_of_nonneg_right k2' hp.le
    linarith
  · rw [← hk, abs_lt]
    constructor <;> linarith

/-- what rounds to less than a double is less than that double by half the gap below it -/
theorem down_gap {V y : ℝ} (hV : 0 < V) (hs : rnd53 V = V) (h : rnd53 y < V) : y ≤ V * (1 - 1 / 2 ^ 54) := by
  by_contra hc
  push Not at hc
  obtain ⟨k, m, hk, k1, k2⟩ := bits hV hs
  have hp : (0 : ℝ) < 2 ^ m := by positivity
  have k2' : (k : ℝ) ≤ 2 ^ 53 - 1 := by
    have : k ≤ 2 ^ 53 - 1 := by omega
    exact_mod_cast this
  have kv := mul_le_mul_of_nonneg_right k2' hp.le
  apply absurd h
  push Not
  rcases le_or_gt V y with hy | hy
  · exact hs ▸ rounding_rnd53.mono hy
  rcases k1.eq_or_lt with hk1 | hk1
  · have hV' : V = 2 ^ 52 * 2 ^ m := by rw [hk, ← hk1]; norm_num
    have em : (2 : ℝ) ^ m = 2 * 2 ^ (m - 1) := by
      rw [show m = (m - 1) + ((1 : ℕ) : ℤ) by simp, zpow_split]; simp
    rw [em] at hV' hp
    have hV2 : V = ((2 ^ 53 : ℤ) : ℝ) * 2 ^ (m - 1) := by rw [hV']; push_cast; ring
    rw [rnd53_eval y (2 ^ 53) (m - 1), ← hV2]
    · rw [show m - 1 + 52 = m - 1 + ((52 : ℕ) : ℤ) by norm_num, zpow_split]
      rw [hV'] at hc
      linarith
    · rw [show m - 1 + 53 = m - 1 + ((53 : ℕ) : ℤ) by norm_num, zpow_split]
      rw [hV'] at hy
      linarith
    · rw [← hV2, abs_lt]
      rw [hV'] at hc hy ⊢
      constructor <;> linarith
  · have k1' : (2 : ℝ) ^ 52 + 1 ≤ k := by exact_mod_cast hk1
    have kl := mul_le_mul_of_nonneg_right k1' hp.le
    have hb : V - 2 ^ m / 2 < y := by
      rw [hk] at hc ⊢
      linarith
    rw [rnd53_eval y k m, hk]
    · rw [show m + 52 = m + ((52 : ℕ) : ℤ) by norm_num, zpow_split]
      linarith
    · rw [show m + 53 = m + ((53 : ℕ) : ℤ) by norm_num, zpow_split]
      linarith
    · rw [← hk, abs_lt]
      constructor <;> linarith

/-- two doubles, and two factors that are all but inverse: they cannot each be below the other -/
theorem never_both {x y f g : ℝ} (hx : rnd53 x = x) (hy : rnd53 y = y) (hf : 0 < f) (hg : 0 < g)
    (l : 1 - 9 / 10 / 2 ^ 53 ≤ f * g) (r : f * g ≤ 1 + 1 / 2 ^ 53) (h : x < rnd53 (y * g)) : rnd53 (x * f) ≤ y := by
  have z := rounding_rnd53.zero
  by_contra hc
  push Not at hc
  rcases lt_trichotomy x 0 with hx0 | hx0 | hx0
  · have hy0 : y < 0 := by
      refine lt_of_lt_of_le hc ?_
      rw [← z]
      exact rounding_rnd53.mono (mul_nonpos_of_nonpos_of_nonneg hx0.le hf.le)
    have a1 := down_gap (V := -x) (y := -(y * g)) (by linarith) (by rw [rnd53_neg, hx]) (by rw [rnd53_neg]; linarith)
    have a2 := down_gap (V := -y) (y := -(x * f)) (by linarith) (by rw [rnd53_neg, hy]) (by rw [rnd53_neg]; linarith)
    have p : 0 < x * y := mul_pos_of_neg_of_neg hx0 hy0
    have := mul_le_mul a1 a2 (by nlinarith) (by nlinarith)
    have e : x * y * (f * g) ≤ x * y * (1 - 1 / 2 ^ 54) ^ 2 := by linarith
    have e' := le_of_mul_le_mul_left e p
    norm_num at e' l
    linarith
  · rw [hx0, zero_mul, z] at hc
    rw [hx0] at h
    have : rnd53 (y * g) ≤ 0 := by
      rw [← z]
      exact rounding_rnd53.mono (mul_nonpos_of_nonpos_of_nonneg hc.le hg.le)
    linarith
  · have hy0 : 0 < y := by
      by_contra hn
      push Not at hn
      have : rnd53 (y * g) ≤ 0 := by
        rw [← z]
        exact rounding_rnd53.mono (mul_nonpos_of_nonpos_of_nonneg hn hg.le)
      linarith
    have a1 := up_gap hx0 hx h
    have a2 := up_gap hy0 hy hc
    have p : 0 < x * y := mul_pos hx0 hy0
    have := mul_lt_mul'' a1 a2 (by positivity) (by positivity)
    have e : x * y * (1 + 1 / 2 ^ 54) ^ 2 < x * y * (f * g) := by linarith
    have e' := lt_of_mul_lt_mul_left e p.le
    norm_num at e' r
    linarith

theorem compare_eq {a b : Value (Rd rnd53)} {n m : String} {A : UnitDef} {g : Rd rnd53} (ha : a.units = some n) (hb : b.units = some m)
    (hA : UnitIs n A) (hne : m ≠ n) (hg : factor (some m) (some n) none = .ok g) (c : Cmp) :
    compareOp c a (.val b) = .ok (c.apply a.value (b.value * g)) := by
  have hcv : b.convert a.units = .ok ⟨b.value * g, a.units⟩ := by
    unfold Value.convert
    rw [ha, hb, if_neg (fun e => hne (Option.some.inj e).symm), if_neg (by simp)]
    simp only [Units.convert, hg, ok_bind, pure_eq_ok]
    exact make_ok (Or.inr ⟨n, A, rfl, hA⟩) _
  have hcmp : a.comparable (.val b) = .ok (b.value * g) := by
    show (do let c ← b.convert a.units; pure c.value) = _
    rw [hcv]; rfl
  unfold compareOp
  rw [hcmp]
  rfl

theorem compare_same {a b : Value (Rd rnd53)} (h : a.units = b.units) (c : Cmp) :
    compareOp c a (.val b) = .ok (c.apply a.value b.value) := by
  have hcmp : a.comparable (.val b) = .ok b.value := by
    show (do let c ← b.convert a.units; pure c.value) = _
    unfold Value.convert
    rw [if_pos h]
    rfl
  unfold compareOp
  rw [hcmp]
  rfl

end FV
open FV

/-- **C104.** Order in double precision, for stored doubles in any units of one kind: if `a` compares less than `b`, then `b`
compares greater than or equal to `a` and not less; and likewise with the signs the other way round. -/
theorem C104_consistent {a b : Value (Rd rnd53)} {k : Option String} {qa qb : ℝ} (ha : Holds a k qa) (hb : Holds b k qb)
    (sa : rnd53 a.value.val = a.value.val) (sb : rnd53 b.value.val = b.value.val) :
    (compareOp .lt a (.val b) = .ok true → compareOp .ge b (.val a) = .ok true ∧ compareOp .lt b (.val a) = .ok false) ∧
      (compareOp .gt a (.val b) = .ok true → compareOp .le b (.val a) = .ok true ∧ compareOp .gt b (.val a) = .ok false) := by
  by_cases hab : a.units = b.units
  · rw [compare_same hab, compare_same hab, compare_same hab.symm, compare_same hab.symm, compare_same hab.symm, compare_same hab.symm]
    simp only [Except.ok.injEq, Cmp.apply, Rd.lt_iff, Rd.le_iff, ← Bool.not_eq_true]
    exact ⟨fun h => ⟨h.le, not_lt.mpr h.le⟩, fun h => ⟨h.le, not_lt.mpr h.le⟩⟩
  · obtain ⟨s, ma, -⟩ := ha
    obtain ⟨t, mb, -⟩ := hb
    cases hau : a.units with
    | none =>
      cases hbu : b.units with
      | none => exact absurd (hau.trans hbu.symm) hab
      | some m =>
        rw [hau] at ma
        rw [hbu] at mb
        obtain ⟨B, _, hk, _⟩ := mb
        rw [ma.1] at hk
        cases hk
    | some n =>
      cases hbu : b.units with
      | none =>
        rw [hau] at ma
        rw [hbu] at mb
        obtain ⟨A, _, hk, _⟩ := ma
        rw [mb.1] at hk
        cases hk
      | some m =>
        have hne : n ≠ m := fun e => hab (by rw [hau, hbu, e])
        rw [hau] at ma
        rw [hbu] at mb
        obtain ⟨A, hA, kA, -⟩ := ma
        obtain ⟨B, hB, kB, -⟩ := mb
        obtain ⟨f, g, hf, hg, pf, pg, l, r⟩ := factors hA hB (Option.some.inj (kA.symm.trans kB)) hne
        simp only [compare_eq hau hbu hA hne.symm hg, compare_eq hbu hau hB hne hf]
        simp only [Except.ok.injEq, Cmp.apply, Rd.lt_iff, Rd.le_iff, ← Bool.not_eq_true, Rd.val_mul]
        constructor
        · intro hlt
          have := never_both sa sb pf pg l r hlt
          exact ⟨this, not_lt.mpr this⟩
        · intro hgt
          have := never_both (x := -a.value.val) (y := -b.value.val) (by rw [rnd53_neg, sa]) (by rw [rnd53_neg, sb]) pf pg l r
            (by rw [neg_mul, rnd53_neg]; linarith)
          rw [neg_mul, rnd53_neg] at this
          have := neg_le_neg_iff.mp this
          exact ⟨this, not_lt.mpr this⟩

/-- **C104.** Equality in double precision is not symmetric: a foot equals twelve inches, but twelve inches do not equal a foot
(they compare less). -/
theorem C104_asymmetric :
    let foot : Value (Rd rnd53) := ⟨Num.lit 1, some "ft"⟩
    let inches : Value (Rd rnd53) := ⟨Num.lit 12, some "in"⟩
    compareOp .eq foot (.val inches) = .ok true ∧ compareOp .eq inches (.val foot) = .ok false ∧
      compareOp .lt inches (.val foot) = .ok true := by
  have e1 : (⟨Num.lit 1, some "ft"⟩ : Value (Rd rnd53)) = up ⟨Num.lit 1, some "ft"⟩ := by unfold up; rw [← QD.toRd_lit]
  have e2 : (⟨Num.lit 12, some "in"⟩ : Value (Rd rnd53)) = up ⟨Num.lit 12, some "in"⟩ := by unfold up; rw [← QD.toRd_lit]
  simp only [e1, e2, compare_cast]
  decide +kernel

/-- **C104.** Equality in double precision is not transitive: an inch equals 2.54 centimetres, which equal 25.4 millimetres, but
the inch does not equal the 25.4 millimetres. -/
theorem C104_intransitive :
    let inch : Value (Rd rnd53) := ⟨Num.lit 1, some "in"⟩
    let cm : Value (Rd rnd53) := ⟨Num.lit 2.54, some "cm"⟩
    let mm : Value (Rd rnd53) := ⟨Num.lit 25.4, some "mm"⟩
    compareOp .eq inch (.val cm) = .ok true ∧ compareOp .eq cm (.val mm) = .ok true ∧
      compareOp .eq inch (.val mm) = .ok false := by
  have e1 : (⟨Num.lit 1, some "in"⟩ : Value (Rd rnd53)) = up ⟨Num.lit 1, some "in"⟩ := by unfold up; rw [← QD.toRd_lit]
  have e2 : (⟨Num.lit 2.54, some "cm"⟩ : Value (Rd rnd53)) = up ⟨Num.lit 2.54, some "cm"⟩ := by unfold up; rw [← QD.toRd_lit]
  have e3 : (⟨Num.lit 25.4, some "mm"⟩ : Value (Rd rnd53)) = up ⟨Num.lit 25.4, some "mm"⟩ := by unfold up; rw [← QD.toRd_lit]
  simp only [e1, e2, e3, compare_cast]
  decide +kernel

/-- non-vacuity: a foot and thirty centimetres are stored doubles of one kind; the foot compares greater -/
theorem C104_witness :
    let a : Value (Rd rnd53) := ⟨Num.lit 1, some "ft"⟩
    let b : Value (Rd rnd53) := ⟨Num.lit 30, some "cm"⟩
    (∃ k qa qb, Holds a k qa ∧ Holds b k qb ∧ qa ≠ qb) ∧ rnd53 a.value.val = a.value.val ∧ rnd53 b.value.val = b.value.val ∧
      compareOp .gt a (.val b) = .ok true ∧ compareOp .le b (.val a) = .ok true := by
  have e1 : (⟨Num.lit 1, some "ft"⟩ : Value (Rd rnd53)) = up ⟨Num.lit 1, some "ft"⟩ := by unfold up; rw [← QD.toRd_lit]
  have e2 : (⟨Num.lit 30, some "cm"⟩ : Value (Rd rnd53)) = up ⟨Num.lit 30, some "cm"⟩ := by unfold up; rw [← QD.toRd_lit]
  intro a b
  refine ⟨?_, ?_, ?_, ?_⟩
  · have hA : UnitIs "ft" ⟨["ft", "foot", "feet"], "length", 12 * 0.0254⟩ := by simp [UnitIs, unitOf, unitDefs]
    have hB : UnitIs "cm" ⟨["cm", "centimeter", "centimeters"], "length", 0.01⟩ := by simp [UnitIs, unitOf, unitDefs]
    refine ⟨some "length", _, _, ⟨_, ⟨_, hA, rfl, rfl⟩, rfl⟩, ⟨_, ⟨_, hB, rfl, rfl⟩, rfl⟩, ?_⟩
    have h1 : a.value.val = 1 := by show rnd53 _ = 1; rw [show ((1 : ℚ) : ℝ) = 1 by norm_num]; exact rounding_rnd53.one
    have h30 : b.value.val = 30 := by
      show rnd53 _ = 30
      have := rounding_rnd53.int 30 (by norm_num)
      norm_num at this ⊢
      exact this
    rw [h1, h30]
    norm_num
  · exact rounding_rnd53.idem _
  · exact rounding_rnd53.idem _
  · simp only [a, b, e1, e2, compare_cast]
    decide +kernel

end Blmath.Props
