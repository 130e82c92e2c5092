import Verif.Model.Numerics
import Mathlib.Tactic.NormNum

/-!
`blmath/numerics/test_predicates.py` on the models.  Those work on the numbers `Fl` of the proofs and cannot be run, so the cases are
worked out by the simplifier.
-/

namespace Blmath.Tests
open Blmath Numerics

/-- `isnumeric`, `isnumericarray`, `isnumericscalar` -/
noncomputable def answers (v : PyVer) (x : Obj) : Bool × Bool × Bool := (isnumeric v x, isnumericarray v x, isnumericscalar v x)

/-- a float -/
def fl (x : ℝ) : Scal := .float (.fin x)

theorem big : (123.456 : ℝ) ≠ 0 := by norm_num

/-- unfold everything -/
macro "answer" : tactic => `(tactic| (
  intro v
  cases v <;> simp [answers, isnumeric, isnumericarray, isnumericscalar, hasIter, isnumericLeaf, isnumericSeen, fl, Scal.dtype,
    DType.join, joinAll, leafIsNan, leafIsInf, Fl.isNaN, Fl.isInf, leafMath, mathSeq, leafOp, arrMath, anyBad, elemsOp, big]))

-- test_predicates, test_predicates_some_more: numeric scalars
example : ∀ v, answers v (.scalar (.int 42)) = (true, false, true) := by answer
example : ∀ v, answers v (.scalar (.int 5)) = (true, false, true) := by answer
example : ∀ v, answers v (.scalar (fl 42)) = (true, false, true) := by answer
example : ∀ v, answers v (.scalar (fl 123.456)) = (true, false, true) := by answer
example : ∀ v, answers v (.scalar (.decimal (.fin 123.456))) = (true, false, true) := by answer
example : ∀ v, answers v (.npscalar .float (fl 2.3)) = (true, false, true) := by answer
-- numeric arrays
example : ∀ v, answers v (.list [.int 1, .int 2, .int 3]) = (true, true, false) := by answer
example : ∀ v, answers v (.list [.int 1, fl 2, .int 3]) = (true, true, false) := by answer
example : ∀ v, answers v (.ndarray .int [3] [.int 1, .int 2, .int 3]) = (true, true, false) := by answer
example : ∀ v, answers v (.ndarray .float [5] [fl 1, fl 2.3, fl 4.5, fl 6.7, fl 8.9]) = (true, true, false) := by answer
example : ∀ v, answers v (.ndarray .int [2, 1] [.int 1, .int 2]) = (true, true, false) := by answer
-- neither
example : ∀ v, answers v (.scalar (.text "42")) = (false, false, false) := by answer
example : ∀ v, answers v (.scalar (.text "123.345")) = (false, false, false) := by answer
example : ∀ v, answers v (.scalar (.bool true)) = (false, false, false) := by answer
example : ∀ v, answers v (.scalar (.float .nan)) = (false, false, false) := by answer
example : ∀ v, answers v (.scalar (.float .pinf)) = (false, false, false) := by answer
example : ∀ v, answers v (.ndarray .text [1] [.text "1"]) = (false, false, false) := by answer
example : ∀ v, answers v (.ndarray .text [3] [.text "foo", .text "bar", .text "baz"]) = (false, false, false) := by answer
example : ∀ v, answers v (.list [.int 1, .text "2", .int 3]) = (false, false, false) := by answer
example : ∀ v, answers v (.list [.int 1, fl 2, .text "3"]) = (false, false, false) := by answer
example : ∀ v, answers v (.scalar (.complex (.fin 1) (.fin 1))) = (false, false, false) := by answer
example : ∀ v, answers v (.ndarray .complex [1] [.complex (.fin 1) (.fin 1)]) = (false, false, false) := by answer
example : ∀ v, answers v (.scalar (.complex (.fin 1) (.fin 0))) = (false, false, false) := by answer
example : ∀ v, answers v (.ndarray .complex [1] [.complex (.fin 1) (.fin 0)]) = (false, false, false) := by answer
example : ∀ v, answers v (.list [.bool true, .bool false, .bool true]) = (false, false, false) := by answer
example : ∀ v, answers v (.ndarray .bool [3] [.bool true, .bool false, .bool true]) = (false, false, false) := by answer
-- test_is_empty_arraylike_*
#guard isEmptyArraylike none && isEmptyArraylike (some (.list [])) && !isEmptyArraylike (some (.list [.int 1]))
#guard isEmptyArraylike (some (.tuple [])) && !isEmptyArraylike (some (.tuple [.int 1]))
#guard isEmptyArraylike (some (.ndarray .float [0] [])) && !isEmptyArraylike (some (.ndarray .int [1] [.int 1]))

end Blmath.Tests
