import Verif.Model.Segment

/-!
`np.linalg.solve` in `line_intersect`, as the elimination that LAPACK does.

numpy hands the matrix to `gesv`: `getf2` picks the row with the larger first entry (the first row if they are equal), multiplies by the
reciprocal of it (divides, if the reciprocal would overflow) and subtracts; `getrs` substitutes forwards and backwards.  A pivot equal to zero is
reported and becomes `LinAlgError`.  This is the reference implementation; others may combine a product and a sum in one rounding.
-/

namespace Blmath.Geometry
variable {α : Type} [Num α]

/-- `dlamch('S')`, below which `getf2` divides instead of multiplying by the reciprocal -/
def sfmin : α := Num.lit (1 / 2 ^ 1022)

/-- the system `a x + b y = r`, `c x + d y = s`, with the pivot `a`.  LAPACK dgetf2, dgetrs -/
def eliminate (a b c d r s : α) : PyM (V2 α) :=
  if Num.eq a (Num.lit 0) then raise .LinAlgError
  else
    let l := if Num.lt (npAbs a) sfmin then c / a else c * (Num.lit 1 / a)
    let u := d - l * b
    if Num.eq u (Num.lit 0) then raise .LinAlgError
    else
      let y := s - l * r
      let x2 := y / u
      .ok ((r - b * x2) / a, x2)

/-- `np.linalg.solve` of a 2×2 system: the rows are exchanged if the first entry of the second is larger.  LAPACK dgesv -/
def gesv2 (a b c d r s : α) : PyM (V2 α) :=
  if Num.lt (npAbs a) (npAbs c) then eliminate c d a b s r else eliminate a b c d r s

/-- `line_intersect` up to `np.linalg.solve`.  segment.py:107-124 -/
def lineSolve (p0 q0 p1 q1 : V2 α) : PyM (V2 α) :=
  let dy := q0.2 - p0.2
  let dx := q0.1 - p0.1
  let lhs0 : V2 α := (-dy, dx)
  let rhs0 := p0.2 * dx - dy * p0.1
  let dy := q1.2 - p1.2
  let dx := q1.1 - p1.1
  let lhs1 : V2 α := (-dy, dx)
  let rhs1 := p1.2 * dx - dy * p1.1
  gesv2 lhs0.1 lhs0.2 lhs1.1 lhs1.2 rhs0 rhs1

/-- `line_intersect`, with LAPACK's elimination.  segment.py:99-126 -/
def lineIntersectLu (p0 q0 p1 q1 : V2 α) : PyM (V2 α) :=
  match lineSolve p0 q0 p1 q1 with
  | .ok x => .ok x
  | .error .LinAlgError => .ok (Num.lit 0 / Num.lit 0, Num.lit 0 / Num.lit 0)
  | .error e => raise e

end Blmath.Geometry
