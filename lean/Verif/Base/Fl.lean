import Verif.Base.Num

/-!
`Fl`: IEEE-754 style scalars with exact finite arithmetic.

A value is a real number, `+inf`, `-inf` or `NaN`.  Special values propagate as IEEE 754
prescribes (`0/0 = NaN`, `x/0 = ±inf`, `NaN` compares false with everything, ...).
Simplifications, recorded in DESIGN.md: finite results are exact (no rounding, no
overflow or underflow) and there is a single zero (so `x/0` takes the sign of `x`).
-/

namespace Blmath

/-- Exact floats with special values. -/
inductive Fl where
  | fin (x : ℝ)
  | pinf
  | ninf
  | nan

namespace Fl

instance : Coe ℝ Fl := ⟨Fl.fin⟩

/-- the infinity with the sign of `x` (used for `x ≠ 0`) -/
noncomputable def infOf (x : ℝ) : Fl := open Classical in if 0 < x then pinf else ninf

protected noncomputable def add : Fl → Fl → Fl
  | fin a, fin b => fin (a + b)
  | fin _, pinf => pinf
  | fin _, ninf => ninf
  | pinf, fin _ => pinf
  | ninf, fin _ => ninf
  | pinf, pinf => pinf
  | ninf, ninf => ninf
  | _, _ => nan

protected noncomputable def neg : Fl → Fl
  | fin a => fin (-a)
  | pinf => ninf
  | ninf => pinf
  | nan => nan

protected noncomputable def sub (a b : Fl) : Fl := Fl.add a (Fl.neg b)

protected noncomputable def mul : Fl → Fl → Fl
  | fin a, fin b => fin (a * b)
  | fin a, pinf => open Classical in if a = 0 then nan else infOf a
  | fin a, ninf => open Classical in if a = 0 then nan else infOf (-a)
  | pinf, fin a => open Classical in if a = 0 then nan else infOf a
  | ninf, fin a => open Classical in if a = 0 then nan else infOf (-a)
  | pinf, pinf => pinf
  | ninf, ninf => pinf
  | pinf, ninf => ninf
  | ninf, pinf => ninf
  | _, _ => nan

protected noncomputable def div : Fl → Fl → Fl
  | fin a, fin b => open Classical in
      if b = 0 then (if a = 0 then nan else infOf a) else fin (a / b)
  | fin _, pinf => fin 0
  | fin _, ninf => fin 0
  | pinf, fin b => open Classical in if b = 0 then pinf else infOf b
  | ninf, fin b => open Classical in if b = 0 then ninf else infOf (-b)
  | _, _ => nan

protected noncomputable def sqrt : Fl → Fl
  | fin a => open Classical in if a < 0 then nan else fin (Real.sqrt a)
  | pinf => pinf
  | _ => nan

protected noncomputable def lt : Fl → Fl → Bool
  | fin a, fin b => open Classical in decide (a < b)
  | fin _, pinf => true
  | ninf, fin _ => true
  | ninf, pinf => true
  | _, _ => false

protected noncomputable def eq : Fl → Fl → Bool
  | fin a, fin b => open Classical in decide (a = b)
  | pinf, pinf => true
  | ninf, ninf => true
  | _, _ => false

protected noncomputable def le (a b : Fl) : Bool := Fl.lt a b || Fl.eq a b

noncomputable instance : Num Fl where
  add := Fl.add
  sub := Fl.sub
  mul := Fl.mul
  div := Fl.div
  neg := Fl.neg
  lit q := fin (q : ℝ)
  sqrt := Fl.sqrt
  lt := Fl.lt
  le := Fl.le
  eq := Fl.eq
  floor | fin a => some ⌊a⌋ | _ => none

noncomputable instance : Trig Fl where
  pi := fin Real.pi
  sin | fin x => fin (Real.sin x) | _ => nan
  cos | fin x => fin (Real.cos x) | _ => nan
  acos | fin x => open Classical in
          if -1 ≤ x ∧ x ≤ 1 then fin (Real.arccos x) else nan
       | _ => nan

/-- `np.isnan` -/
def isNaN : Fl → Bool
  | nan => true
  | _ => false

/-- `np.isinf` -/
def isInf : Fl → Bool
  | pinf => true
  | ninf => true
  | _ => false

/-- the value is an ordinary number -/
def IsFinite (x : Fl) : Prop := ∃ r : ℝ, x = fin r

@[simp] theorem add_fin (a b : ℝ) : (fin a + fin b : Fl) = fin (a + b) := rfl
@[simp] theorem sub_fin (a b : ℝ) : (fin a - fin b : Fl) = fin (a - b) := by
  show fin (a + -b) = _
  rw [sub_eq_add_neg]
@[simp] theorem neg_fin (a : ℝ) : (-fin a : Fl) = fin (-a) := rfl
@[simp] theorem mul_fin (a b : ℝ) : (fin a * fin b : Fl) = fin (a * b) := rfl
theorem div_fin (a b : ℝ) (h : b ≠ 0) : (fin a / fin b : Fl) = fin (a / b) := by
  show Fl.div _ _ = _
  simp [Fl.div, h]
theorem div_zero_zero : (fin 0 / fin 0 : Fl) = nan := by
  show Fl.div _ _ = _
  simp [Fl.div]
theorem div_fin_zero (a : ℝ) (h : a ≠ 0) : (fin a / fin 0 : Fl) = infOf a := by
  show Fl.div _ _ = _
  simp [Fl.div, h]
@[simp] theorem lit_fl (q : ℚ) : (Num.lit q : Fl) = fin (q : ℝ) := rfl
theorem sqrt_fin (a : ℝ) (h : 0 ≤ a) : Num.sqrt (fin a) = fin (Real.sqrt a) := by
  show Fl.sqrt _ = _
  simp [Fl.sqrt, not_lt.mpr h]
@[simp] theorem lt_fin (a b : ℝ) : (Num.lt (fin a) (fin b) = true) ↔ a < b := by
  show Fl.lt _ _ = true ↔ _
  simp [Fl.lt]
@[simp] theorem eq_fin (a b : ℝ) : (Num.eq (fin a) (fin b) = true) ↔ a = b := by
  show Fl.eq _ _ = true ↔ _
  simp [Fl.eq]
@[simp] theorem le_fin (a b : ℝ) : (Num.le (fin a) (fin b) = true) ↔ a ≤ b := by
  show Fl.le _ _ = true ↔ _
  simp [Fl.le, Fl.lt, Fl.eq, le_iff_lt_or_eq]

@[simp] theorem nan_add (a : Fl) : (nan + a : Fl) = nan := by cases a <;> rfl
@[simp] theorem add_nan (a : Fl) : (a + nan : Fl) = nan := by cases a <;> rfl
@[simp] theorem nan_sub (a : Fl) : (nan - a : Fl) = nan := by cases a <;> rfl
@[simp] theorem sub_nan (a : Fl) : (a - nan : Fl) = nan := by cases a <;> rfl
@[simp] theorem nan_mul (a : Fl) : (nan * a : Fl) = nan := by cases a <;> rfl
@[simp] theorem mul_nan (a : Fl) : (a * nan : Fl) = nan := by cases a <;> rfl
@[simp] theorem nan_div (a : Fl) : (nan / a : Fl) = nan := by cases a <;> rfl
@[simp] theorem div_nan (a : Fl) : (a / nan : Fl) = nan := by cases a <;> rfl
@[simp] theorem neg_nan : (-nan : Fl) = nan := rfl
@[simp] theorem sqrt_nan : (Num.sqrt nan : Fl) = nan := rfl
@[simp] theorem lt_nan (a : Fl) : Num.lt a nan = false := by cases a <;> rfl
@[simp] theorem nan_lt (a : Fl) : Num.lt nan a = false := by cases a <;> rfl
@[simp] theorem eq_nan (a : Fl) : Num.eq a nan = false := by cases a <;> rfl
@[simp] theorem nan_eq (a : Fl) : Num.eq nan a = false := by cases a <;> rfl
@[simp] theorem le_nan (a : Fl) : Num.le a nan = false := by cases a <;> rfl
@[simp] theorem nan_le (a : Fl) : Num.le nan a = false := by cases a <;> rfl

@[simp] theorem isNaN_fin (a : ℝ) : isNaN (fin a) = false := rfl
@[simp] theorem isInf_fin (a : ℝ) : isInf (fin a) = false := rfl
@[simp] theorem isNaN_nan : isNaN nan = true := rfl
@[simp] theorem isInf_nan : isInf nan = false := rfl
@[simp] theorem isFinite_fin (a : ℝ) : IsFinite (fin a) := ⟨a, rfl⟩

theorem isFinite_iff (x : Fl) : IsFinite x ↔ isNaN x = false ∧ isInf x = false := by
  cases x <;> simp [IsFinite, isNaN, isInf]

@[simp] theorem floor_fin (a : ℝ) : Num.floor (fin a) = some ⌊a⌋ := rfl
@[simp] theorem sin_fin (a : ℝ) : Trig.sin (fin a) = fin (Real.sin a) := rfl
@[simp] theorem cos_fin (a : ℝ) : Trig.cos (fin a) = fin (Real.cos a) := rfl
@[simp] theorem pi_fl : (Trig.pi : Fl) = fin Real.pi := rfl
theorem acos_fin (a : ℝ) (h1 : -1 ≤ a) (h2 : a ≤ 1) :
    Trig.acos (fin a) = fin (Real.arccos a) := by
  simp [Trig.acos, h1, h2]

end Fl
end Blmath
