import Verif.Model.Vx

/-!
Model of `blmath/geometry/apex.py`.  Stacks of points (`V x 3` arrays) are lists of 3-vectors.
-/

namespace Blmath.Geometry
variable {α : Type} [Num α]

/-- `np.argmax`: position of the first largest value; a NaN, if any, wins (the first one) -/
def argmaxFrom : ℕ → ℕ → α → List α → ℕ
  | _, best, _, [] => best
  | i, best, b, x :: xs =>
    if npIsNan b then best
    else if npIsNan x || Num.lt b x then argmaxFrom (i + 1) i x xs
    else argmaxFrom (i + 1) best b xs

/-- `np.argmax`; an empty sequence raises ValueError -/
def argmax : List α → PyM ℕ
  | [] => raise .ValueError
  | x :: xs => .ok (argmaxFrom 1 0 x xs)

/-- `apex`.  apex.py:4-12 -/
def apex (points : List (V3 α)) (axis : V3 α) : PyM (V3 α) := do
  let coords := points.map fun p => V3.dot p axis
  let i ← argmax coords
  pyIndex points (i : ℤ)

/-- `farthest`.  apex.py:46-57 -/
def farthest (fromPoint : V3 α) (toPoints : List (V3 α)) : PyM (V3 α × ℕ) := do
  let dists := toPoints.map fun p => V3.norm (p - fromPoint)
  let i ← argmax dists
  let p ← pyIndex toPoints (i : ℤ)
  pure (p, i)

/-- `np.gradient` changed its meaning for an array argument in numpy 1.13; requirements.txt allows
numpy 1.10.1 and later. -/
inductive NpGradient where
  /-- before 1.13 the argument divides the differences elementwise -/
  | spacing
  /-- since 1.13 the argument gives the coordinates of the samples -/
  | coordinates
  deriving DecidableEq, Repr

/-- element `i` of a list known to be long enough -/
def at' (xs : List α) (i : ℕ) : α := xs.getD i (Num.lit 0)

/-- `np.gradient(f)` of a sequence of at least two samples: central differences inside, one-sided
ones at the ends -/
def gradient1 (f : List α) : List α :=
  (List.range f.length).map fun (i : ℕ) =>
    if i = 0 then at' f 1 - at' f 0
    else if i + 1 = f.length then at' f i - at' f (i - 1)
    else (at' f (i + 1) - at' f (i - 1)) / Num.lit 2

/-- `np.gradient(f, x)` with sample coordinates (numpy ≥ 1.13); equal distances are treated as one number -/
def gradientAt (f x : List α) : List α :=
  let d0 := at' x 1 - at' x 0
  if (List.range (f.length - 1)).all fun (i : ℕ) => Num.eq (at' x (i + 1) - at' x i) d0 then
    (List.range f.length).map fun (i : ℕ) =>
      if i = 0 then (at' f 1 - at' f 0) / d0
      else if i + 1 = f.length then (at' f i - at' f (i - 1)) / d0
      else (at' f (i + 1) - at' f (i - 1)) / (Num.lit 2 * d0)
  else
    (List.range f.length).map fun (i : ℕ) =>
      if i = 0 then (at' f 1 - at' f 0) / d0
      else if i + 1 = f.length then (at' f i - at' f (i - 1)) / (at' x i - at' x (i - 1))
      else
        let hd := at' x i - at' x (i - 1)
        let hs := at' x (i + 1) - at' x i
        (-(hs / (hd * (hd + hs)))) * at' f (i - 1) + ((hs - hd) / (hd * hs)) * at' f i +
          (hd / (hs * (hd + hs))) * at' f (i + 1)

/-- `np.gradient(f, dx)` -/
def gradient2 (np : NpGradient) (f dx : List α) : List α :=
  match np with
  | .spacing => List.zipWith (· / ·) (gradient1 f) dx
  | .coordinates => gradientAt f dx

/-- positions `i` with `d[i] * d[i+1] <= 0`.  apex.py:37-39 -/
def signChanges (d : List α) : List ℕ :=
  (List.range (d.length - 1)).filter fun (i : ℕ) => Num.le (at' d i * at' d (i + 1)) (Num.lit 0)

/-- `inflection_points`, for at least two points (fewer raise).  apex.py:14-44 -/
def inflectionPoints (np : NpGradient) (points : List (V3 α)) (axis span : V3 α) :
    PyM (List (V3 α)) :=
  if points.length < 2 then raise .ValueError
  else
    let dx := gradient1 (points.map fun p => V3.dot p span)
    let coords := points.map fun p => V3.dot p axis
    let d2 := gradient2 np (gradient2 np coords dx) dx
    (signChanges d2).mapM fun (i : ℕ) => pyIndex points (i : ℤ)

end Blmath.Geometry
