import Mathlib.Analysis.Real.Sqrt
import Mathlib.Analysis.SpecialFunctions.Trigonometric.Inverse
import Mathlib.Algebra.Order.Floor.Ring
import Mathlib.Data.Rat.Floor

/-!
Arithmetic interface of the models.

The code computes with numpy `float64`.  All models are written once, against the
class `Num`, and instantiated three ways:

* `ℝ`   : exact real arithmetic (used where the code itself excludes division by 0);
* `Fl`  : exact reals extended with IEEE `NaN`, `+inf`, `-inf` (file `Base/Fl.lean`), used
          wherever the code can produce special values;
* `Float`: only so that the models can be executed (never mentioned in a theorem).

No laws are assumed by the class.
-/

namespace Blmath

/-- Scalar operations used by the code.  `lit` injects numeric literals. -/
class Num (α : Type) extends Add α, Sub α, Mul α, Div α, Neg α where
  /-- a numeric literal of the source text -/
  lit : ℚ → α
  /-- `np.sqrt` -/
  sqrt : α → α
  /-- `<` (false when an operand is NaN) -/
  lt : α → α → Bool
  /-- `<=` (false when an operand is NaN) -/
  le : α → α → Bool
  /-- `==` (false when an operand is NaN) -/
  eq : α → α → Bool
  /-- largest integer not above the argument; `none` for NaN and infinities -/
  floor : α → Option ℤ

/-- Transcendental operations used by the code. -/
class Trig (α : Type) where
  /-- `np.pi` -/
  pi : α
  /-- `np.sin` -/
  sin : α → α
  /-- `np.cos` -/
  cos : α → α
  /-- `np.arccos` / `math.acos` -/
  acos : α → α

noncomputable instance : Num ℝ where
  lit q := (q : ℝ)
  sqrt := Real.sqrt
  lt a b := open Classical in decide (a < b)
  le a b := open Classical in decide (a ≤ b)
  eq a b := open Classical in decide (a = b)
  floor a := some ⌊a⌋

noncomputable instance : Trig ℝ where
  pi := Real.pi
  sin := Real.sin
  cos := Real.cos
  acos := Real.arccos

@[simp] theorem Num.lit_real (q : ℚ) : (Num.lit q : ℝ) = (q : ℝ) := rfl
@[simp] theorem Num.sqrt_real (x : ℝ) : Num.sqrt x = Real.sqrt x := rfl
@[simp] theorem Num.lt_real (a b : ℝ) : (Num.lt a b = true) ↔ a < b := by
  simp [Num.lt]
@[simp] theorem Num.le_real (a b : ℝ) : (Num.le a b = true) ↔ a ≤ b := by
  simp [Num.le]
@[simp] theorem Num.eq_real (a b : ℝ) : (Num.eq a b = true) ↔ a = b := by
  simp [Num.eq]
@[simp] theorem Num.floor_real (a : ℝ) : Num.floor a = some ⌊a⌋ := rfl
@[simp] theorem Trig.pi_real : (Trig.pi : ℝ) = Real.pi := rfl
@[simp] theorem Trig.sin_real (x : ℝ) : Trig.sin x = Real.sin x := rfl
@[simp] theorem Trig.cos_real (x : ℝ) : Trig.cos x = Real.cos x := rfl
@[simp] theorem Trig.acos_real (x : ℝ) : Trig.acos x = Real.arccos x := rfl

end Blmath
