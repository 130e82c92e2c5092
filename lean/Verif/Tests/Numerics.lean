import Verif.Tests.Transform
import Verif.Model.Vx
import Verif.Model.Numerics
import Verif.Model.GramSchmidt
import Verif.Model.Isomorphism

/-!
`blmath/numerics/test_vector_shortcuts.py`, `test_operations.py`, `test_coercion.py`, `linalg/test_gram_schmidt.py` and
`linalg/test_isomorphism.py`, run on the models.  (The models of the predicates work on the numbers `Fl` of the proofs and do not run;
the cases of `test_predicates.py` are in `Tests/Predicates.lean`.)
-/

namespace Blmath.Tests
open Blmath Geometry Vx

/-! ### test_vector_shortcuts.py -/

/-- nearly the same vector -/
def isVec (r : PyM (Arr Float)) (xs : List Float) : Bool :=
  returns r fun x => match x with
    | .vec ys => close ys xs
    | _ => false

def s2 : Float := Float.sqrt 2 / 2
def stack3 : Arr Float := .mat 3 [[1, 1, 0], [-1, 0, 0], [0, 0, 5]]
def stack2 : Arr Float := .mat 3 [[2, 4, 0], [-2, -1, 0]]

-- test_normalize, test_normalize_stacked
#guard isVec (normalizeArr (.vec [1, 1, 0])) [s2, s2, 0] && isArr (normalizeArr stack3) [[s2, s2, 0], [-1, 0, 0], [0, 0, 1]]
-- test_proj, test_proj_stacked
#guard returns (sprojVec [5, -3, 1] [0, -1, 0]) (almost · (3 : Float)) && isVec (proj (.vec [5, -3, 1]) [0, -1, 0]) [0, -3, 0]
#guard [[5, -3, 1], [1, 0, 1], [0, 1, 0], [0, 0, 0]].zip [3, 0, -1, 0] |>.all fun (t : List Float × Float) => returns (sprojVec t.1 [0, -1, 0]) (almost · t.2)
#guard isArr (proj (.mat 3 [[5, -3, 1], [1, 0, 1], [0, 1, 0], [0, 0, 0]]) [0, -1, 0]) [[0, -3, 0], [0, 0, 0], [0, 1, 0], [0, 0, 0]]
-- test_reject, test_reject_stacked
#guard isVec (reject (.vec [2, 4, 0]) [0, 5, 0]) [2, 0, 0] && isArr (reject stack2 [0, 5, 0]) [[2, 0, 0], [-2, 0, 0]]
-- test_reject_axis and variants
#guard isVec (rejectAxis (.vec [2, 4, 0]) 1 false) [2, 0, 0] && isArr (rejectAxis stack2 1 false) [[2, 0, 0], [-2, 0, 0]]
#guard isVec (rejectAxis (.vec [2, 4, 0]) 1 true) [2, 0] && isArr (rejectAxis stack2 1 true) [[2, 0], [-2, 0]]
-- test_magnitude
#guard returns (magnitude stack3) fun r => match r with | .inr l => close l [Float.sqrt 2, 1, 5] | _ => false
#guard returns (magnitude (.vec [1, 1, 0])) fun r => match r with | .inl x => almost x (Float.sqrt 2) | _ => false
-- test_angle
#guard signedAngle (pt 1 1 0) (pt (-1) 1 0) (pt 0 0 1) == 90 && signedAngle (pt (-1) 1 0) (pt 1 1 0) (pt 0 0 1) == -90
#guard Vx.angle (pt 1 1 0) (pt (-1) 1 0) == 90 && Vx.angle (pt (-1) 1 0) (pt 1 1 0) == 90
#guard almost (signedAngle (pt 1 1 0) (pt (-1) (-1) 0) (pt 0 0 1)) 180 5 && almost (Vx.angle (pt 1 1 0) (pt (-1) (-1) 0)) 180 5
-- test_almost_zero
#guard almostZero (pt 0 0 0) defaultAtol && almostZero (pt 0.000000000000000001 0 0) defaultAtol && !almostZero (pt 0.0000001 0 0) defaultAtol
-- test_almost_collinear
#guard let vs := [pt 0 0 0, pt 1 1 0, pt (-1) (-1) 0, pt 2 2 0, pt 1.000000001 1 0]
  vs.all fun a => vs.all fun b => almostCollinear a b defaultAtol
#guard let vs := [pt 1 1 0, pt (-1) (-1.3) 0, pt 2 2 1, pt 1.000001 1 0]
  vs.zipIdx.all fun a => vs.zipIdx.all fun b => a.2 == b.2 || !almostCollinear a.1 b.1 defaultAtol
-- test_pad_with_ones, test_pad_with_wrong_dimensions
#guard isArr (padWithOnes (.mat 3 [[1, 2, 3], [2, 3, 4], [5, 6, 7]])) [[1, 2, 3, 1], [2, 3, 4, 1], [5, 6, 7, 1]]
#guard raises (padWithOnes (α := Float) (.mat 4 [[1, 2, 3, 42], [2, 3, 4, 42], [5, 6, 7, 42]])) .ValueError && raises (padWithOnes (α := Float) (.vec [1, 2, 3])) .ValueError
-- test_unpad
#guard isArr (unpad (.mat 4 [[1, 2, 3, 1], [2, 3, 4, 1], [5, 6, 7, 1]])) [[1, 2, 3], [2, 3, 4], [5, 6, 7]]
#guard raises (unpad (α := Float) (.mat 3 [[1, 2, 3], [2, 3, 4], [5, 6, 7]])) .ValueError && raises (unpad (α := Float) (.vec [1, 2, 3, 4])) .ValueError
#guard raises (unpad (α := Float) (.mat 4 [[1, 2, 3, 1], [2, 3, 4, 1], [5, 6, 7, 3]])) .ValueError

/-! ### test_operations.py -/

-- test_zero_safe_divide, the arrays flattened
#guard
  let num := (List.range 25).map fun i => if i = 18 then (0 : Float) else 1
  let den := (List.range 25).map fun i => if i = 18 || i = 12 then (0 : Float) else 1
  returns (Numerics.zeroSafeDivide num den 0) fun r => (r[12]? == some 0) && (r[18]? == some 0) && (r[0]? == some 1) && r.length == 25

/-! ### test_coercion.py -/

/-- what the tests pass: numbers in a list, a tuple or an array; or words -/
inductive Thing where
  | numbers (n : Nat)
  | column (n : Nat)
  | words (n : Nat)

/-- `np.asarray`, as a shape and one entry for all: whether it is a number -/
def asArray : Thing → PyM (Numerics.NdArray Bool)
  | .numbers n => .ok ⟨[n], fun _ => true⟩
  | .column n => .ok ⟨[n, 1], fun _ => true⟩
  | .words n => .ok ⟨[n], fun _ => false⟩

/-- `as_numeric_array(v, shape=(3,), …)` -/
def coerce3 (x : Option Thing) (allowNone emptyAsNone : Bool) : PyM (Option (Numerics.NdArray Bool)) :=
  Numerics.asNumericArray asArray (fun a => a.get []) x (some [3]) allowNone emptyAsNone

-- test_as_numeric_array_three_by_one
#guard [true, false].all fun b => returns (coerce3 (some (.numbers 3)) b false) Option.isSome
#guard returns (coerce3 none true false) Option.isNone && raises (coerce3 none false false) .ValueError
#guard returns (coerce3 (some (.numbers 0)) true true) Option.isNone && raises (coerce3 (some (.numbers 0)) false true) .ValueError
#guard [Thing.numbers 1, .numbers 2, .numbers 4, .column 3, .words 3].all fun x => [true, false].all fun b => raises (coerce3 (some x) b false) .ValueError

/-! ### test_gram_schmidt.py -/

def gsIn : List (Fin 3 → Float) := [![1, 1, 1], ![2, 1, 0], ![5, 1, 3]]

/-- the dot products of the pairs of rows, and the norms -/
def gsDots (r : List (Fin 3 → Float)) : List Float × List Float :=
  let d (i j : Nat) : Float := match r[i]?, r[j]? with
    | some a, some b => Linalg.dotRow a b
    | _, _ => 99
  ([d 0 1, d 1 2, d 0 2], [Float.sqrt (d 0 0), Float.sqrt (d 1 1), Float.sqrt (d 2 2)])

-- test_orthogonalizes, test_orthormalizes, test_orthormalizes_given_indices (the tests compare with 0 exactly)
#guard same (gsDots (Linalg.orthogonalize gsIn)).1 [0, 0, 0]
#guard returns (Linalg.orthonormalize gsIn none) fun r => close (gsDots r).1 [0, 0, 0] 12 && close (gsDots r).2 [1, 1, 1] 7
#guard returns (Linalg.orthonormalize gsIn (some [1])) fun r => close (gsDots r).1 [0, 0, 0] 12 &&
  match (gsDots r).2 with
  | [a, b, c] => a != 1 && almost b 1 && c != 1
  | _ => false
-- test_gram_schmidt_implemented
#guard close ((Linalg.orthogonalize [![3, 1], ![2, 2]]).flatMap List.ofFn) [3, 1, -2/5, 6/5] 7
#guard let t := Float.sqrt 10
  returns (Linalg.orthonormalize [![3, 1], ![2, 2]] none) fun r => close (r.flatMap List.ofFn) [3 / t, 1 / t, -1 / t, 3 / t] 7

/-! ### test_isomorphism.py -/

/-- a determinant, by expansion along the first row -/
def det : (n : Nat) → Mat n n Float → Float
  | 0, _ => 1
  | n + 1, m => (List.finRange (n + 1)).foldl (fun s j =>
      s + (if j.val % 2 == 0 then 1 else -1) * m 0 j * det n (Matrix.of fun a b => m a.succ (j.succAbove b))) 0

/-- an array from its rows -/
def grid (rows : Rows) : Grid Float := ⟨rows.length, (rows.headD []).length, fun i j => ((rows[i]?).bind (·[j]?)).getD 0⟩

-- test_raises_error_for_dependent_frame, test_raises_error_for_mismatched_dimensions
#guard raises (Linalg.isomorphism det (fun _ => inverse) (grid [[1, 1], [2, 2]]) (grid [[1, 0], [0, 1]])) .LinearDependenceError
#guard raises (Linalg.isomorphism det (fun _ => inverse) (grid [[1]]) (grid [[1, 0], [0, 1]])) .DimensionalityError
-- test_returns_correct_matrix
#guard returns (Linalg.isomorphism det (fun _ => inverse) (grid [[s2, s2], [-s2, s2]]) (grid [[0, 1], [-1, 0]])) fun m =>
  close m.rows.flatten [s2, -s2, s2, s2] 7

end Blmath.Tests
