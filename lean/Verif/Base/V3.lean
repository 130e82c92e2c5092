import Verif.Base.Num

/-!
3-vectors and the numpy operations on them used throughout the geometry code.
-/

namespace Blmath

/-- a point or vector in 3-space: a numpy array of shape `(3,)` -/
@[ext] structure V3 (α : Type) where
  x : α
  y : α
  z : α
  deriving DecidableEq, Repr

/-- `np.sign` on a scalar (NaN stays NaN) -/
def npSign {α : Type} [Num α] (x : α) : α :=
  if Num.lt (Num.lit 0) x then Num.lit 1
  else if Num.lt x (Num.lit 0) then Num.lit (-1)
  else if Num.eq x (Num.lit 0) then Num.lit 0
  else x

/-- `np.absolute` on a scalar -/
def npAbs {α : Type} [Num α] (x : α) : α := if Num.lt x (Num.lit 0) then -x else x

/-- `np.isnan` on a scalar: NaN is the only value different from itself -/
def npIsNan {α : Type} [Num α] (x : α) : Bool := !Num.eq x x

/-- `np.isinf` on a scalar: the infinities are the non-NaN values with `x - x` NaN -/
def npIsInf {α : Type} [Num α] (x : α) : Bool := !npIsNan x && npIsNan (x - x)

/-- `np.minimum` on two scalars (NaN propagates) -/
def npMin {α : Type} [Num α] (a b : α) : α :=
  if npIsNan a then a else if npIsNan b then b else if Num.lt b a then b else a

/-- `np.maximum` on two scalars (NaN propagates) -/
def npMax {α : Type} [Num α] (a b : α) : α :=
  if npIsNan a then a else if npIsNan b then b else if Num.lt a b then b else a

/-- sum of the values of a function on `Fin n` -/
def sumFin {α : Type} [Num α] : {n : ℕ} → (Fin n → α) → α
  | 0, _ => Num.lit 0
  | _ + 1, f => f 0 + sumFin fun i => f i.succ

namespace V3
variable {α : Type} [Num α]

instance : Add (V3 α) := ⟨fun a b => ⟨a.x + b.x, a.y + b.y, a.z + b.z⟩⟩
instance : Sub (V3 α) := ⟨fun a b => ⟨a.x - b.x, a.y - b.y, a.z - b.z⟩⟩
instance : Neg (V3 α) := ⟨fun a => ⟨-a.x, -a.y, -a.z⟩⟩

/-- scalar times array -/
def smul (s : α) (a : V3 α) : V3 α := ⟨s * a.x, s * a.y, s * a.z⟩
/-- array divided by a scalar -/
def sdiv (a : V3 α) (s : α) : V3 α := ⟨a.x / s, a.y / s, a.z / s⟩
/-- `np.dot` of two vectors -/
def dot (a b : V3 α) : α := a.x * b.x + a.y * b.y + a.z * b.z
/-- `np.cross` -/
def cross (a b : V3 α) : V3 α :=
  ⟨a.y * b.z - a.z * b.y, a.z * b.x - a.x * b.z, a.x * b.y - a.y * b.x⟩
/-- `np.linalg.norm` -/
def norm (a : V3 α) : α := Num.sqrt (dot a a)
/-- the zero vector -/
def zero : V3 α := ⟨Num.lit 0, Num.lit 0, Num.lit 0⟩
/-- componentwise image -/
def map {β : Type} (f : α → β) (a : V3 α) : V3 β := ⟨f a.x, f a.y, f a.z⟩
/-- the components in order -/
def toList (a : V3 α) : List α := [a.x, a.y, a.z]

@[simp] theorem add_x (a b : V3 α) : (a + b).x = a.x + b.x := rfl
@[simp] theorem add_y (a b : V3 α) : (a + b).y = a.y + b.y := rfl
@[simp] theorem add_z (a b : V3 α) : (a + b).z = a.z + b.z := rfl
@[simp] theorem sub_x (a b : V3 α) : (a - b).x = a.x - b.x := rfl
@[simp] theorem sub_y (a b : V3 α) : (a - b).y = a.y - b.y := rfl
@[simp] theorem sub_z (a b : V3 α) : (a - b).z = a.z - b.z := rfl
@[simp] theorem neg_x (a : V3 α) : (-a).x = -a.x := rfl
@[simp] theorem neg_y (a : V3 α) : (-a).y = -a.y := rfl
@[simp] theorem neg_z (a : V3 α) : (-a).z = -a.z := rfl
@[simp] theorem smul_x (s : α) (a : V3 α) : (smul s a).x = s * a.x := rfl
@[simp] theorem smul_y (s : α) (a : V3 α) : (smul s a).y = s * a.y := rfl
@[simp] theorem smul_z (s : α) (a : V3 α) : (smul s a).z = s * a.z := rfl
@[simp] theorem sdiv_x (s : α) (a : V3 α) : (sdiv a s).x = a.x / s := rfl
@[simp] theorem sdiv_y (s : α) (a : V3 α) : (sdiv a s).y = a.y / s := rfl
@[simp] theorem sdiv_z (s : α) (a : V3 α) : (sdiv a s).z = a.z / s := rfl

end V3
end Blmath
