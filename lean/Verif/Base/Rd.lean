import Verif.Base.V3

/-!
Arithmetic with rounding: a fourth instance of `Num`.

`Rd rnd` are the reals with every operation followed by the rounding `rnd`, as IEEE arithmetic does for results
in range (no overflow, no underflow).  Negation, comparisons and `floor` are exact.  Nothing is assumed of `rnd` here;
what the theorems need is the contract `Spec.Rounding`.
-/

namespace Blmath

/-- a number computed with the rounding `rnd` -/
@[ext] structure Rd (rnd : ℝ → ℝ) where
  val : ℝ

namespace Rd
variable {rnd : ℝ → ℝ}

noncomputable instance : Num (Rd rnd) where
  add a b := ⟨rnd (a.val + b.val)⟩
  sub a b := ⟨rnd (a.val - b.val)⟩
  mul a b := ⟨rnd (a.val * b.val)⟩
  div a b := ⟨rnd (a.val / b.val)⟩
  neg a := ⟨-a.val⟩
  lit q := ⟨rnd q⟩
  sqrt a := ⟨rnd (Real.sqrt a.val)⟩
  lt a b := open Classical in decide (a.val < b.val)
  le a b := open Classical in decide (a.val ≤ b.val)
  eq a b := open Classical in decide (a.val = b.val)
  floor a := some ⌊a.val⌋

/-- the elementary functions are rounded too -/
noncomputable instance : Trig (Rd rnd) where
  pi := ⟨rnd Real.pi⟩
  sin a := ⟨rnd (Real.sin a.val)⟩
  cos a := ⟨rnd (Real.cos a.val)⟩
  acos a := ⟨rnd (Real.arccos a.val)⟩

@[simp] theorem val_add (a b : Rd rnd) : (a + b).val = rnd (a.val + b.val) := rfl
@[simp] theorem val_sub (a b : Rd rnd) : (a - b).val = rnd (a.val - b.val) := rfl
@[simp] theorem val_mul (a b : Rd rnd) : (a * b).val = rnd (a.val * b.val) := rfl
@[simp] theorem val_div (a b : Rd rnd) : (a / b).val = rnd (a.val / b.val) := rfl
@[simp] theorem val_neg (a : Rd rnd) : (-a).val = -a.val := rfl
@[simp] theorem val_lit (q : ℚ) : (Num.lit q : Rd rnd).val = rnd q := rfl
@[simp] theorem val_sqrt (a : Rd rnd) : (Num.sqrt a).val = rnd (Real.sqrt a.val) := rfl
@[simp] theorem lt_iff (a b : Rd rnd) : (Num.lt a b = true) ↔ a.val < b.val := by simp [Num.lt]
@[simp] theorem le_iff (a b : Rd rnd) : (Num.le a b = true) ↔ a.val ≤ b.val := by simp [Num.le]
@[simp] theorem eq_iff (a b : Rd rnd) : (Num.eq a b = true) ↔ a.val = b.val := by simp [Num.eq]

/-- the real vector stored in a rounded one -/
def vec (v : V3 (Rd rnd)) : V3 ℝ := ⟨v.x.val, v.y.val, v.z.val⟩

@[simp] theorem vec_x (v : V3 (Rd rnd)) : (vec v).x = v.x.val := rfl
@[simp] theorem vec_y (v : V3 (Rd rnd)) : (vec v).y = v.y.val := rfl
@[simp] theorem vec_z (v : V3 (Rd rnd)) : (vec v).z = v.z.val := rfl

end Rd
end Blmath
