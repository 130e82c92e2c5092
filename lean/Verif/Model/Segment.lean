import Verif.Base.V3
import Verif.Base.Fl
import Verif.Base.Py

/-!
Model of `blmath/geometry/segment.py`.

`partition_segment`, `partition_segment_old` and `partition` work in n-space; they are written once,
for any type of points with the array operations they use (`PointOps`).  Instances: 3-vectors and
coordinate functions `Fin n → α` for every `n`.
-/

namespace Blmath.Geometry
variable {α : Type} [Num α]

/-- array operations on points of n-space -/
class PointOps (α P : Type) where
  add : P → P → P
  sub : P → P → P
  /-- every component times the scalar -/
  smul : α → P → P
  /-- every component divided by the scalar -/
  sdiv : P → α → P
  /-- sum of the squares of the components -/
  sumSq : P → α

instance : PointOps α (V3 α) where
  add := (· + ·)
  sub := (· - ·)
  smul := V3.smul
  sdiv := V3.sdiv
  sumSq a := V3.dot a a

instance (n : ℕ) : PointOps α (Fin n → α) where
  add a b i := a i + b i
  sub a b i := a i - b i
  smul s a i := s * a i
  sdiv a s i := a i / s
  sumSq a := sumFin fun i => a i * a i

section
variable {P : Type} [PointOps α P]
open PointOps

/-- `np.linspace(0, 1, num=n, endpoint=endpoint)` for `n ≥ 2`: `arange(n) * (1 / div)`, the last
sample overwritten by 1 when the endpoint is included -/
def linspace01 (n : ℕ) (endpoint : Bool) : List α :=
  let div : ℕ := if endpoint then n - 1 else n
  let step : α := Num.lit 1 / Num.lit (div : ℚ)
  (List.range n).map fun (i : ℕ) =>
    if endpoint && i + 1 == n then Num.lit 1 else Num.lit (i : ℚ) * step

/-- `partition_segment`; `none` for a count that is not an int.  segment.py:39-64 -/
def partitionSegment (p1 p2 : P) (nSamples : Option ℤ) (endpoint : Bool := true) : PyM (List P) :=
  match nSamples with
  | none => raise .TypeError
  | some n =>
    if n < 2 then raise .ValueError
    else .ok ((linspace01 n.toNat endpoint).map fun (t : α) =>
      add α (smul t (sub α p2 p1)) p1)

/-- `partition_segment_old`.  segment.py:66-97 -/
def partitionSegmentOld (p1 p2 : P) (partitionSize : Option ℤ) : PyM (List P) :=
  match partitionSize with
  | none => raise .TypeError
  | some n =>
    if n < 2 then raise .ValueError
    else
      let dist : α := Num.sqrt (sumSq (sub α p1 p2))
      let unitDirection := sdiv (sub α p2 p1) dist
      let partitionWidth := dist / Num.lit (n : ℚ)
      .ok ((List.range (n.toNat - 1)).map fun (i : ℕ) =>
        add α p1 (smul (partitionWidth * Num.lit ((i + 1 : ℕ) : ℚ)) unitDirection))

/-- the points put on the segment from `a` to `b`, `b` excluded.  segment.py:21-35 -/
def partitionOne (a b : P) (k : ℕ) : List P :=
  let diff := sub α b a
  let dist : α := Num.sqrt (sumSq diff)
  let unitd := sdiv diff dist
  let width := dist / Num.lit (k : ℚ)
  (List.range k).map fun (j : ℕ) => add α a (smul (width * Num.lit (j : ℚ)) unitd)

/-- the filled segments of a chain of points -/
def partitionFill : List P → ℕ → List P
  | a :: b :: rest, k => partitionOne (α := α) a b k ++ partitionFill (b :: rest) k
  | _, _ => []

/-- `partition`, for a positive partition size.  segment.py:3-37.  An empty array fails on `v[-1]`
with IndexError. -/
def partition (v : List P) (k : ℕ) : PyM (List P) :=
  match v.getLast? with
  | none => raise .IndexError
  | some last => .ok (partitionFill (α := α) v k ++ [last])

end

/-- a point of the plane -/
abbrev V2 (α : Type) := α × α

/-- The solver contract: LAPACK's `gesv` on a 2x2 system reports a singular matrix exactly when a
pivot is zero.  In exact arithmetic: LinAlgError iff the determinant is 0, else the unique solution
(here written by Cramer's rule).  `np.linalg.solve` -/
def solve2 (a b c d r s : α) : PyM (V2 α) :=
  let det := a * d - b * c
  if Num.eq det (Num.lit 0) then raise .LinAlgError
  else .ok ((r * d - b * s) / det, (a * s - r * c) / det)

/-- `line_intersect`.  segment.py:99-126 -/
def lineIntersect (p0 q0 p1 q1 : V2 α) : PyM (V2 α) :=
  let dy := q0.2 - p0.2
  let dx := q0.1 - p0.1
  let lhs0 : V2 α := (-dy, dx)
  let rhs0 := p0.2 * dx - dy * p0.1
  let dy := q1.2 - p1.2
  let dx := q1.1 - p1.1
  let lhs1 : V2 α := (-dy, dx)
  let rhs1 := p1.2 * dx - dy * p1.1
  match solve2 lhs0.1 lhs0.2 lhs1.1 lhs1.2 rhs0 rhs1 with
  | .ok x => .ok x
  | .error .LinAlgError => .ok (Num.lit 0 / Num.lit 0, Num.lit 0 / Num.lit 0)
  | .error e => raise e

/-- `np.all(a == b)` -/
def allEq3 (a b : V3 α) : Bool := Num.eq a.x b.x && Num.eq a.y b.y && Num.eq a.z b.z

/-- `line_intersect3`; `none` is Python's None.  segment.py:128-153 -/
def lineIntersect3 (p0 q0 p1 q1 : V3 α) : Option (V3 α) :=
  let e := p0 - q0
  let f := p1 - q1
  if allEq3 p0 p1 || allEq3 p0 q1 then some p0
  else if allEq3 q0 p1 || allEq3 p0 q1 then some q0
  else
    let g := p0 - p1
    let h := V3.cross f g
    let k := V3.cross f e
    let h_ := V3.norm h
    let k_ := V3.norm k
    if Num.eq h_ (Num.lit 0) || Num.eq k_ (Num.lit 0) then none
    else
      let l := V3.smul (h_ / k_) e
      let sign : α := if allEq3 (V3.sdiv h h_) (V3.sdiv k k_) then Num.lit (-1) else Num.lit 1
      some (p0 + V3.smul sign l)

end Blmath.Geometry
