import Verif.Base.V3
import Verif.Base.Fl
import Verif.Base.F64

/-!
NaN, as IEEE 754 describes it: every operation on it gives it back, every comparison with it is false,
and no other value differs from itself.
-/

namespace Blmath.Spec
variable {α : Type} [Num α]

/-- `n` behaves as NaN -/
structure NotANumber (n : α) : Prop where
  add_left : ∀ x, n + x = n
  add_right : ∀ x, x + n = n
  sub_left : ∀ x, n - x = n
  sub_right : ∀ x, x - n = n
  mul_left : ∀ x, n * x = n
  mul_right : ∀ x, x * n = n
  div_left : ∀ x, n / x = n
  div_right : ∀ x, x / n = n
  neg : -n = n
  sqrt : Num.sqrt n = n
  lt_left : ∀ x, Num.lt n x = false
  lt_right : ∀ x, Num.lt x n = false
  le_left : ∀ x, Num.le n x = false
  le_right : ∀ x, Num.le x n = false
  eq_left : ∀ x, Num.eq n x = false
  eq_right : ∀ x, Num.eq x n = false
  floor : Num.floor n = none
  unique : ∀ x : α, Num.eq x x = false → x = n

/-- one of the three coordinates is the value `n` -/
def HasCoord (v : V3 α) (n : α) : Prop := v.x = n ∨ v.y = n ∨ v.z = n

/-- the vector with three coordinates `n` -/
def same3 (n : α) : V3 α := ⟨n, n, n⟩

/-- NaN of the arithmetic without rounding -/
theorem notANumber_fl : NotANumber Fl.nan where
  add_left := Fl.nan_add
  add_right := Fl.add_nan
  sub_left := Fl.nan_sub
  sub_right := Fl.sub_nan
  mul_left := Fl.nan_mul
  mul_right := Fl.mul_nan
  div_left := Fl.nan_div
  div_right := Fl.div_nan
  neg := Fl.neg_nan
  sqrt := Fl.sqrt_nan
  lt_left := Fl.nan_lt
  lt_right := Fl.lt_nan
  le_left := Fl.nan_le
  le_right := Fl.le_nan
  eq_left := Fl.nan_eq
  eq_right := Fl.eq_nan
  floor := rfl
  unique x h := by
    cases x with
    | fin r => exact absurd h (by simp [(Fl.eq_fin r r).mpr rfl])
    | pinf => cases h
    | ninf => cases h
    | nan => rfl

/-- NaN of the doubles -/
theorem notANumber_f64 : NotANumber F64.nan where
  add_left x := by cases x <;> rfl
  add_right x := by cases x <;> rfl
  sub_left x := by cases x <;> rfl
  sub_right x := by cases x <;> rfl
  mul_left x := by cases x <;> rfl
  mul_right x := by cases x <;> rfl
  div_left x := by cases x <;> rfl
  div_right x := by cases x <;> rfl
  neg := rfl
  sqrt := rfl
  lt_left x := by cases x <;> rfl
  lt_right x := by cases x <;> rfl
  le_left x := by cases x <;> rfl
  le_right x := by cases x <;> rfl
  eq_left x := by cases x <;> rfl
  eq_right x := by cases x <;> rfl
  floor := rfl
  unique x h := by
    cases x with
    | num q => simp [Num.eq, F64.eq] at h
    | zero b => simp [Num.eq, F64.eq] at h
    | inf b => simp [Num.eq, F64.eq] at h
    | nan => rfl

end Blmath.Spec
