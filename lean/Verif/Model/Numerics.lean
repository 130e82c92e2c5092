import Verif.Base.V3
import Verif.Base.Fl
import Verif.Base.Py

/-!
Models of `blmath/numerics/operations.py`, `coercion.py`, `predicates.py` and `numpy_ext.py`.
-/

namespace Blmath.Numerics

section operations
variable {α : Type} [Num α]

/-- `np.min` of an array (flattened); an empty array raises ValueError -/
def npMinArr : List α → PyM α
  | [] => raise .ValueError
  | x :: xs => .ok (xs.foldl npMin x)

/-- `np.max` of an array (flattened); an empty array raises ValueError -/
def npMaxArr : List α → PyM α
  | [] => raise .ValueError
  | x :: xs => .ok (xs.foldl npMax x)

/-- `scale_to_range`.  operations.py:1-4.  The array is given by its elements in order; the
operation is elementwise, so the shape is unchanged. -/
def scaleToRange (a : List α) (rMin rMax : α) : PyM (List α) := do
  let mn ← npMinArr a
  let a := a.map (· - mn)
  let mx ← npMaxArr a
  pure (a.map fun t => (rMax - rMin) * t / mx + rMin)

/-- `zero_safe_divide` on two arrays of the same shape (elements in order).
operations.py:6-22 -/
def zeroSafeDivide (a b : List α) (dflt : α) : PyM (List α) :=
  if a.length = b.length then
    .ok ((List.zipWith (· / ·) a b).map fun q => if npIsNan q || npIsInf q then dflt else q)
  else raise .ValueError

/-- `zero_safe_divide` on two scalars: `np.true_divide` then yields a `numpy.float64`, on which
the item assignment of line 20 raises TypeError.  operations.py:17-20 -/
def zeroSafeDivideScalar (_a _b _dflt : α) : PyM α := raise .TypeError

end operations

/-! ### `as_numeric_array` -/

/-- An n-dimensional array: its shape and its element at each index tuple. -/
structure NdArray (β : Type) where
  shape : List ℕ
  get : List ℕ → β

namespace NdArray
variable {β : Type}
/-- `a.T`: all axes reversed -/
def T (a : NdArray β) : NdArray β := ⟨a.shape.reverse, fun idx => a.get idx.reverse⟩
end NdArray

/-- `all([exp == -1 or exp == dim for exp, dim in zip(shape, dims)])`.  coercion.py:40,42 -/
def dimsMatch (shape : List ℤ) (dims : List ℕ) : Bool :=
  (List.zip shape dims).all fun p => p.1 == -1 || p.1 == (p.2 : ℤ)

/-- `as_numeric_array`.  coercion.py:1-46.  `asarray` is `np.asarray(·, dtype=dtype)`, `isnum` is
`isnumericarray`.  The inner recursive call (line 36) has `a = None` and `allow_none = True`, so
it returns None whatever its other (misplaced) arguments are; the warning is not modelled. -/
def asNumericArray {ω β : Type} (asarray : ω → PyM (NdArray β)) (isnum : NdArray β → Bool)
    (a : Option ω) (shape : Option (List ℤ)) (allowNone emptyAsNone : Bool) :
    PyM (Option (NdArray β)) :=
  match a with
  | none => if allowNone then .ok none else raise .ValueError
  | some o => do
    let a ← asarray o
    if !isnum a then raise .ValueError
    else if allowNone && emptyAsNone && (a.shape == [0]) then
      (if allowNone then .ok none else raise .ValueError)
    else match shape with
      | none => .ok (some a)
      | some shape =>
        if shape.length ≠ a.shape.length then raise .ValueError
        else if dimsMatch shape a.shape then .ok (some a)
        else if dimsMatch shape a.T.shape then .ok (some a.T)
        else raise .ValueError

/-! ### predicates -/

/-- Leaf Python values as distinguished by `isnumeric`. -/
inductive Scal where
  | bool (b : Bool)
  | int (z : ℤ)
  | float (x : Fl)
  | complex (re im : Fl)
  | decimal (x : Fl)
  | text (s : String)
  /-- None, functions, dicts, ... : supports no arithmetic -/
  | other

/-- numpy element types -/
inductive DType where
  | bool | int | float | complex | text | object
  deriving DecidableEq, Repr

/-- Python objects as distinguished by the predicates.  `npscalar` is a 0-d result such as
`np.float64(1.)`; it has a dtype but no `__iter__` worth asking for (numpy scalars have none). -/
inductive Obj where
  | scalar (s : Scal)
  | npscalar (dt : DType) (s : Scal)
  | ndarray (dt : DType) (shape : List ℕ) (elems : List Scal)
  | list (xs : List Scal)
  | tuple (xs : List Scal)
  /-- nested lists of equal lengths -/
  | table (rows : List (List Scal))

/-- the numpy element type chosen for one Python leaf -/
def Scal.dtype : Scal → DType
  | .bool _ => .bool
  | .int _ => .int
  | .float _ => .float
  | .complex _ _ => .complex
  | .decimal _ => .object
  | .text _ => .text
  | .other => .object

/-- numpy's promotion of element types when a list is converted -/
def DType.join : DType → DType → DType
  | .object, _ => .object
  | _, .object => .object
  | .text, _ => .text
  | _, .text => .text
  | .complex, _ => .complex
  | _, .complex => .complex
  | .float, _ => .float
  | _, .float => .float
  | .int, _ => .int
  | _, .int => .int
  | .bool, .bool => .bool

/-- element type of `np.asarray(list)`; an empty list gives `float64` -/
def joinAll : List Scal → DType
  | [] => .float
  | x :: xs => xs.foldl (fun d s => d.join s.dtype) x.dtype

/-- An array as `isnumeric` sees it. -/
structure Seen where
  dt : DType
  elems : List Scal

/-- `hasattr(x, '__iter__')`; Python 3 strings have it, Python 2 strings do not. -/
def hasIter (ver : PyVer) : Obj → Bool
  | .scalar (.text _) => ver == .py3
  | .scalar _ => false
  | .npscalar _ _ => false
  | _ => true

/-- is NaN: `np.isnan` on a leaf; raises TypeError (`none`) for decimals, text and objects -/
def leafIsNan : Scal → Option Bool
  | .bool _ => some false
  | .int _ => some false
  | .float x => some x.isNaN
  | .complex re im => some (re.isNaN || im.isNaN)
  | _ => none

/-- `np.isinf` on a leaf -/
def leafIsInf : Scal → Option Bool
  | .bool _ => some false
  | .int _ => some false
  | .float x => some x.isInf
  | .complex re im => some (re.isInf || im.isInf)
  | _ => none

/-- Outcome of one of `x+x`, `x-x`, `x*x`, `x/x`: no exception, ZeroDivisionError, or another
exception. -/
inductive Mathy where
  | fine | zeroDiv | failed
  deriving DecidableEq, Repr

/-- The four operations in the order of predicates.py:21. -/
inductive MathOp where
  | add | sub | mul | div
  deriving DecidableEq, Repr

/-- Python arithmetic of one leaf with itself.  Numbers and booleans support all four operations and
raise ZeroDivisionError for `0/0`.  `Decimal` raises `InvalidOperation` (not a ZeroDivisionError) for
`0/0`, `Infinity - Infinity` and `Infinity / Infinity`; quiet `Decimal('NaN')` goes through.  A string
supports `+` only. -/
noncomputable def leafOp : MathOp → Scal → Mathy
  | .div, .bool b => if b then .fine else .zeroDiv
  | .div, .int z => if z = 0 then .zeroDiv else .fine
  | .div, .float (.fin r) => open Classical in if r = 0 then .zeroDiv else .fine
  | .div, .complex (.fin a) (.fin b) =>
    open Classical in if a = 0 ∧ b = 0 then .zeroDiv else .fine
  | .div, .decimal (.fin r) => open Classical in if r = 0 then .failed else .fine
  | .sub, .decimal .pinf => .failed
  | .sub, .decimal .ninf => .failed
  | .div, .decimal .pinf => .failed
  | .div, .decimal .ninf => .failed
  | .add, .text _ => .fine
  | _, .text _ => .failed
  | _, .other => .failed
  | _, _ => .fine

/-- one operation on an object array: element by element, stopping at the first exception -/
noncomputable def elemsOp (op : MathOp) : List Scal → Mathy
  | [] => .fine
  | s :: ss => match leafOp op s with
    | .fine => elemsOp op ss
    | r => r

/-- the four operations one after another: the first exception ends them -/
def mathSeq (f : MathOp → Mathy) : Mathy :=
  match f .add with
  | .fine => match f .sub with
    | .fine => match f .mul with
      | .fine => f .div
      | r => r
    | r => r
  | r => r

/-- `x+x, x-x, x*x, x/x` on one leaf -/
noncomputable def leafMath (s : Scal) : Mathy := mathSeq fun op => leafOp op s

/-- arithmetic on an array: native element types never raise (division by zero only warns), text
arrays have no arithmetic, object arrays work element by element -/
noncomputable def arrMath (x : Seen) : Mathy :=
  match x.dt with
  | .text => .failed
  | .object => mathSeq fun op => elemsOp op x.elems
  | _ => .fine

/-- `np.any(np.isnan(x)) or np.any(np.isinf(x))`, `none` when numpy raises TypeError -/
def anyBad (x : Seen) : Option Bool :=
  match x.dt with
  | .text => none
  | .object => none
  | _ => some (x.elems.any fun s => leafIsNan s == some true || leafIsInf s == some true)

/-- lines 12-27 of `isnumeric`, for arrays -/
noncomputable def isnumericSeen (x : Seen) : Bool :=
  if x.dt = .bool then false
  else if x.dt = .complex then false
  else if anyBad x = some true then false
  else match arrMath x with
    | .fine => true
    | .zeroDiv => true
    | .failed => false

/-- lines 5-27 of `isnumeric`, for a bare Python leaf -/
noncomputable def isnumericLeaf (s : Scal) : Bool :=
  if s.dtype = .bool then false
  else if s.dtype = .complex then false
  else if leafIsNan s = some true || leafIsInf s = some true then false
  else match leafMath s with
    | .fine => true
    | .zeroDiv => true
    | .failed => false

/-- `isnumeric`.  predicates.py:1-27.  (In the numpy versions of the project `np.bool` is the
built-in `bool`.) -/
noncomputable def isnumeric (ver : PyVer) : Obj → Bool
  | .scalar (.text s) =>
    match ver with
    | .py3 => isnumericSeen ⟨.text, [.text s]⟩
    | .py2 => isnumericLeaf (.text s)
  | .scalar s => isnumericLeaf s
  | .npscalar dt s => isnumericSeen ⟨dt, [s]⟩
  | .ndarray dt _ elems => isnumericSeen ⟨dt, elems⟩
  | .list xs => isnumericSeen ⟨joinAll xs, xs⟩
  | .tuple xs => isnumericSeen ⟨joinAll xs, xs⟩
  | .table rows => isnumericSeen ⟨joinAll rows.flatten, rows.flatten⟩

/-- `isnumericscalar`.  predicates.py:29-30 -/
noncomputable def isnumericscalar (ver : PyVer) (x : Obj) : Bool := !hasIter ver x && isnumeric ver x

/-- `isnumericarray`.  predicates.py:32-33 -/
noncomputable def isnumericarray (ver : PyVer) (x : Obj) : Bool := hasIter ver x && isnumeric ver x

/-- `arr.size` -/
def arrSize (shape : List ℕ) : ℕ := shape.prod

/-- `is_empty_arraylike`; `none` is Python's None.  predicates.py:35-54 -/
def isEmptyArraylike : Option Obj → Bool
  | none => true
  | some (.ndarray _ shape _) => arrSize shape == 0
  | some (.list xs) => xs.length == 0
  | some (.tuple xs) => xs.length == 0
  | some (.table rows) => rows.length == 0
  | some _ => false

/-! ### `np_reshape_safe` -/

/-- A strided view into a buffer: what a numpy array is. -/
structure View where
  buf : ℕ
  offset : ℤ
  shape : List ℕ
  strides : List ℤ
  deriving DecidableEq, Repr

/-- Outcome of numpy's assignment `res.shape = shape`. -/
inductive SetShape where
  /-- same buffer, these strides -/
  | view (strides : List ℤ)
  /-- AttributeError: a copy would be needed -/
  | needsCopy
  /-- ValueError: wrong total size -/
  | badSize

/-- What `np_reshape_safe` returns: a view and whether it warned. -/
structure Reshaped where
  view : View
  warned : Bool

/-- `np_reshape_safe`.  numpy_ext.py:1-16.  `setShape` is numpy's in-place shape assignment,
`reshapeCopy` its copying `reshape` into a buffer not used before. -/
def npReshapeSafe (setShape : View → List ℕ → SetShape) (reshapeCopy : View → List ℕ → View)
    (a : View) (shape : List ℕ) (justWarn : Bool) : PyM Reshaped :=
  let res := a
  match setShape res shape with
  | .view strides => .ok ⟨{ res with shape := shape, strides := strides }, false⟩
  | .needsCopy => if justWarn then .ok ⟨reshapeCopy a shape, true⟩ else raise .AttributeError
  | .badSize => raise .ValueError

end Blmath.Numerics
