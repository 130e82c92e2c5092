import Verif.Model.Rodrigues

/-!
Model of the Jacobians computed by `rodrigues` with `calculate_jacobian=True`.
-/

namespace Blmath.Geometry
variable {α : Type} [Num α] [Trig α]

/-- `m.flatten()` of a 3×3 matrix -/
def flatten9 (m : Mat 3 3 α) : Fin 9 → α := fun p => m ⟨p / 3, by omega⟩ ⟨p % 3, by omega⟩

/-- the Jacobian for small vectors.  rodrigues.py:28-30 -/
def expJacSmall : Mat 3 9 α :=
  let o : α := Num.lit 0
  let i : α := Num.lit 1
  let n : α := Num.lit (-1)
  !![o, o, o, o, o, n, o, i, o;
     o, o, i, o, o, o, n, o, o;
     o, n, o, i, o, o, o, o, o]

/-- `drrt`, for a unit vector.  rodrigues.py:47-51 -/
def drrt (r : V3 α) : Mat 3 9 α :=
  let o : α := Num.lit 0
  !![r.x + r.x, r.y, r.z, r.y, o, o, r.z, o, o;
     o, r.x, o, r.x, r.y + r.y, r.z, o, r.z, o;
     o, o, r.x, o, o, r.y, r.x, r.y, r.z + r.z]

/-- `d_r_x_`.  rodrigues.py:52-56 -/
def dSkew : Mat 3 9 α :=
  let o : α := Num.lit 0
  let i : α := Num.lit 1
  let n : α := Num.lit (-1)
  !![o, o, o, o, o, n, o, i, o;
     o, o, i, o, o, o, n, o, o;
     o, n, o, i, o, o, o, o, o]

/-- the Jacobian of `rodrigues` of a vector: one row for each component of the vector, one column for
each entry of the matrix.  rodrigues.py:22-64 -/
def rodriguesExpJac (r : V3 α) : Mat 3 9 α :=
  let theta := r.norm
  if Num.lt theta eps then expJacSmall
  else
    let c := Trig.cos theta
    let s := Trig.sin theta
    let c1 := Num.lit 1 - c
    let it := itheta theta
    let r := V3.smul it r
    let ri : Fin 3 → α := ![r.x, r.y, r.z]
    Matrix.of fun j p =>
      -s * ri j * flatten9 (Mat.eye 3) p
        + (s - Num.lit 2 * c1 * it) * ri j * flatten9 (outer r) p
        + Num.lit 1 * c1 * it * drrt r j p
        + (c - s * it) * ri j * flatten9 (skew r) p
        + Num.lit 1 * s * it * dSkew j p

/-- the Jacobian near the identity.  rodrigues.py:90-93 -/
def logJacSmall : Mat 9 3 α :=
  let o : α := Num.lit 0
  let h : α := Num.lit (1 / 2)
  let n : α := Num.lit (-1 / 2)
  !![o, o, o;
     o, o, n;
     o, h, o;
     o, o, h;
     o, o, o;
     n, o, o;
     o, n, o;
     h, o, o;
     o, o, o]

/-- `dvardR`.  rodrigues.py:101-107 -/
def dvardR (d1 d2 : α) : Mat 5 9 α :=
  let o : α := Num.lit 0
  let i : α := Num.lit 1
  let n : α := Num.lit (-1)
  !![o, o, o, o, o, i, o, n, o;
     o, o, n, o, o, o, i, o, o;
     o, i, o, n, o, o, o, o, o;
     d1, o, o, o, d1, o, o, o, d1;
     d2, o, o, o, d2, o, o, o, d2]

/-- `dvar2dvar`.  rodrigues.py:108-113 -/
def dvar2dvar (vth : α) (v : V3 α) : Mat 4 5 α :=
  let o : α := Num.lit 0
  !![vth, o, o, v.x, o;
     o, vth, o, v.y, o;
     o, o, vth, v.z, o;
     o, o, o, o, Num.lit 1]

/-- `domegadvar2`.  rodrigues.py:114-118 -/
def domegadvar2 (theta vth : α) (v : V3 α) : Mat 3 4 α :=
  let o : α := Num.lit 0
  !![theta, o, o, v.x * vth;
     o, theta, o, v.y * vth;
     o, o, theta, v.z * vth]

/-- position of an entry of a flattened 3×3 matrix in the flattened transpose -/
def transposed9 (p : Fin 9) : Fin 9 := ⟨p % 3 * 3 + p / 3, by omega⟩

/-- the Jacobian of `rodrigues` of the orthogonal factor of a matrix: one row for each entry of the
matrix, one column for each component of the vector.  rodrigues.py:67-74, 89-122 -/
def rodriguesLogJacOrth (r : Mat 3 3 α) : Mat 9 3 α :=
  let v : V3 α := ⟨r 2 1 - r 1 2, r 0 2 - r 2 0, r 1 0 - r 0 1⟩
  let s := v.norm * Num.sqrt (Num.lit (1 / 4))
  let c := clip11 ((r 0 0 + r 1 1 + r 2 2 - Num.lit 1) * Num.lit (1 / 2))
  let theta := Trig.acos c
  if Num.lt s (Num.lit (1 / 100000)) then
    if Num.lt (Num.lit 0) c then logJacSmall else Matrix.of fun _ _ => Num.lit 0
  else
    let vth := Num.lit 1 / (Num.lit 2 * s)
    let dthetaDtr := Num.lit (-1) / s
    let dvthDtheta := -vth * c / s
    let d1 := Num.lit (1 / 2) * dvthDtheta * dthetaDtr
    let d2 := Num.lit (1 / 2) * dthetaDtr
    let jac := Mat.mul (Mat.mul (domegadvar2 theta vth v) (dvar2dvar vth v)) (dvardR d1 d2)
    Matrix.of fun p k => jac k (transposed9 p)

/-- result of `rodrigues(r, calculate_jacobian=True)` -/
inductive RotJac (α : Type) where
  | mat (m : Mat 3 3 α) (jac : Mat 3 9 α)
  | vec (r : V3 α) (jac : Mat 9 3 α)

/-- `rodrigues(r, calculate_jacobian=True)`.  rodrigues.py:18-130 -/
def rodriguesJac (svd : Svd3 α) : RotArg α → PyM (RotJac α)
  | .vec r => pure (.mat (rodriguesExp r) (rodriguesExpJac r))
  | .mat m => do
    let (u, _, v) ← svd m
    pure (.vec (rodriguesLogOrth (Mat.mul u v)) (rodriguesLogJacOrth (Mat.mul u v)))
  | .other => raise .GenericException

end Blmath.Geometry
